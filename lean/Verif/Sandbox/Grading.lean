import Verif.Sandbox.View

/-! # The files in the course of a whole run: C87 and C92 -/

namespace Quark.Sandbox

open Path Spec

/-- The names that anything but copying may write: in the directory of the run, and not one of those that hold
copies. -/
def Free (j : Job) (p : Str) : Prop := Within j.root p ∧ p ∉ copyTargets j

theorem free_of_written {j : Job} (hr : j.root ≠ []) (hs : NoSlashes j) {p : Str} (h : Written j p) : Free j p :=
  ⟨written_within hr h, written_not_target hr hs h⟩

theorem writes_spec {T W : Str → Prop} (ws : List (Str × Str)) (h : ∀ w ∈ ws, W w.1) {fs : FS} (hg : Good T W fs) :
    Good T W (ws.foldl (fun fs w => fs.write w.1 w.2) fs) ∧
    ∀ q, ¬ W q → (ws.foldl (fun fs w => fs.write w.1 w.2) fs).read q = fs.read q := by
  induction ws generalizing fs with
  | nil => exact ⟨hg, fun _ _ => rfl⟩
  | cons w ws ih =>
    obtain ⟨g, r⟩ := write_spec hg (h w (by simp)) w.2
    obtain ⟨i1, i2⟩ := ih (fun w hw => h w (by simp [hw])) g
    rw [List.foldl_cons]
    refine ⟨i1, fun q hq => ?_⟩
    rw [i2 q hq, r q, if_neg]
    rintro rfl
    exact hq (h w (by simp))

/-- The name that a step copies to. -/
def copyDst : Op → Option Str
  | .copy _ d => some d
  | _ => none

/-- The names that steps copy to. -/
def copied (steps : List (Op × Bool × CopyEnv)) : List Str := steps.filterMap fun s => copyDst s.1

theorem ino_none_iff (fs : FS) (p : Str) : fs.ino p = none ↔ fs.read p = none := by
  unfold FS.read; simp

theorem exec_spec {T W : Str → Prop} (steps : List (Op × Bool × CopyEnv)) {fs : FS} (hg : Good T W fs)
    (hw : ∀ s ∈ steps, ∀ p c, s.1 = .write p c → W p)
    (hc : ∀ s ∈ steps, ∀ a b, s.1 = .copy a b → T b ∧ ¬ W b ∧ ¬ W a)
    (hnd : (copied steps).Nodup) (hn : ∀ d ∈ copied steps, fs.read d = none) :
    Good T W (execOps steps fs).1 ∧
    ∀ q, (∀ s ∈ steps, ∀ c, s.1 ≠ .write q c) → q ∉ copied steps → (execOps steps fs).1.read q = fs.read q := by
  induction steps generalizing fs with
  | nil => exact ⟨hg, fun _ _ _ => rfl⟩
  | cons s steps ih =>
    obtain ⟨op, works, env⟩ := s
    have hw' : ∀ s ∈ steps, ∀ p c, s.1 = .write p c → W p := fun s hs => hw s (by simp [hs])
    have hc' : ∀ s ∈ steps, ∀ a b, s.1 = .copy a b → T b ∧ ¬ W b ∧ ¬ W a := fun s hs => hc s (by simp [hs])
    have same : ∀ op', (∀ a b, op' ≠ .copy a b) → copied ((op', works, env) :: steps) = copied steps := by
      intro op' h
      cases op' with
      | copy a b => exact absurd rfl (h a b)
      | _ => rfl
    cases op with
    | mkdir p =>
      rw [same _ (fun _ _ h => by cases h)] at hnd hn ⊢
      rw [execOps, Op.exec]
      cases works with
      | false => exact ⟨hg, fun _ _ _ => rfl⟩
      | true =>
        obtain ⟨i1, i2⟩ := ih hg hw' hc' hnd hn
        exact ⟨i1, fun q hq hq' => i2 q (fun s hs => hq s (by simp [hs])) hq'⟩
    | fifo p =>
      rw [same _ (fun _ _ h => by cases h)] at hnd hn ⊢
      rw [execOps, Op.exec]
      cases works with
      | false => exact ⟨hg, fun _ _ _ => rfl⟩
      | true =>
        obtain ⟨i1, i2⟩ := ih hg hw' hc' hnd hn
        exact ⟨i1, fun q hq hq' => i2 q (fun s hs => hq s (by simp [hs])) hq'⟩
    | write p c =>
      rw [same _ (fun _ _ h => by cases h)] at hnd hn ⊢
      rw [execOps, Op.exec]
      cases works with
      | false => exact ⟨hg, fun _ _ _ => rfl⟩
      | true =>
        have hp : W p := hw (.write p c, true, env) (by simp) p c rfl
        obtain ⟨g, r⟩ := write_spec hg hp c
        have r' : ∀ q, ¬ W q → (fs.write p c).read q = fs.read q := by
          intro q hq
          rw [r, if_neg]
          rintro rfl
          exact hq hp
        have r'' : ∀ q, q ≠ p → (fs.write p c).read q = fs.read q := by
          intro q hq
          rw [r, if_neg hq]
        have hnw : ∀ d ∈ copied steps, ¬ W d := by
          intro d hd
          unfold copied at hd
          obtain ⟨s, hs, hsd⟩ := List.mem_filterMap.1 hd
          cases h1 : s.1 with
          | copy a b =>
            rw [h1] at hsd
            simp only [copyDst, Option.some.injEq] at hsd
            subst hsd
            exact (hc' s hs a b h1).2.1
          | _ => rw [h1] at hsd; simp [copyDst] at hsd
        obtain ⟨i1, i2⟩ := ih g hw' hc' hnd (fun d hd => by rw [r' d (hnw d hd)]; exact hn d hd)
        refine ⟨i1, fun q hq hq' => (i2 q (fun s hs => hq s (by simp [hs])) hq').trans (r'' q ?_)⟩
        rintro rfl
        exact hq (.write q c, true, env) (by simp) c rfl
    | copy a b =>
      have e : copied ((Op.copy a b, works, env) :: steps) = b :: copied steps := rfl
      rw [e] at hnd hn ⊢
      obtain ⟨hbt, hbw, haw⟩ := hc _ (List.mem_cons_self ..) a b rfl
      have hb : fs.ino b = none := (ino_none_iff fs b).2 (hn b (by simp))
      obtain ⟨c1, c2, -⟩ := copy_spec hg env (src := a) hb hbt hbw haw
      rw [execOps, Op.exec]
      cases hx : copyFile env a b fs with
      | mk fs1 err =>
        rw [hx] at c1 c2
        simp only at c1 c2
        cases err with
        | true =>
          refine ⟨c1, fun q _ hq' => c2 q ?_⟩
          rintro rfl
          exact hq' (by simp)
        | false =>
          have hnd' := List.nodup_cons.1 hnd
          obtain ⟨i1, i2⟩ := ih c1 hw' hc' hnd'.2 (fun d hd => by
            rw [c2 d (fun h => hnd'.1 (h ▸ hd))]; exact hn d (by simp [hd]))
          refine ⟨i1, fun q hq hq' => ?_⟩
          simp only [List.mem_cons, not_or] at hq'
          exact (i2 q (fun s hs => hq s (by simp [hs])) hq'.2).trans (c2 q hq'.1)

/-! ## The set-up of a job -/

theorem copied_eq (steps : List (Op × Bool × CopyEnv)) :
    copied steps = (steps.map Prod.fst).filterMap copyDst := by
  unfold copied
  rw [List.filterMap_map]
  rfl

theorem filterMap_no_copy {ops : List Op} (h : ∀ a b, Op.copy a b ∉ ops) :
    ops.filterMap copyDst = [] := by
  rw [List.filterMap_eq_nil_iff]
  intro o ho
  cases o with
  | copy a b => exact absurd ho (h a b)
  | _ => rfl

/-- The names that setting up copies to. -/
def setupTargets (j : Job) : List Str :=
  (match j.interactive with
    | some ia => [join [j.root, c!"Main/bin/Main." ++ extension ia.parentLang]]
    | none => []) ++
  (match j.validator with
    | some lang => [join [validatorBin j, c!"validator." ++ extension lang]]
    | none => [])

/-- The copies of setting up. -/
theorem setup_copied {j : Job} {bs : List Binary} {ops : List Op} (h : setupOps j bs = some ops) :
    ops.filterMap copyDst = setupTargets j := by
  unfold setupTargets
  unfold setupOps at h
  simp only at h
  cases hi : j.interactive with
  | none =>
    simp only [hi, Option.map_some, Option.some.injEq] at h
    subst h
    rw [List.filterMap_append]
    cases j.validator <;> rfl
  | some ia =>
    simp only [hi] at h
    cases ho : ifacesOps j ia (ia.interfaces.map Prod.fst) ia.interfaces with
    | none => simp [ho] at h
    | some o =>
      simp only [ho, Option.map_some, Option.some.injEq] at h
      subst h
      rw [List.filterMap_append, List.filterMap_append, List.filterMap_cons,
        filterMap_no_copy (fun a b => ifacesOps_no_copy ho a b), filterMap_no_copy (by simp [binDirs])]
      cases j.validator <;> rfl

theorem setup_copied_nodup {j : Job} (hr : j.root ≠ []) (hs : NoSlashes j) :
    (setupTargets j).Nodup ∧
    ∀ d ∈ setupTargets j, d ∈ copyTargets j ∧ d ∉ [dataIn j, dataOut j, metaIn j] := by
  unfold setupTargets
  have hvd : ∀ lang, j.validator = some lang → ∀ x, x.length ≤ 8 → 
      join [validatorBin j, c!"validator." ++ extension lang] ≠ join [j.root, c!"validator", c!"bin", x] ∨ ¬ Name x := by
    intro lang hl x hx
    by_cases hn : Name x
    · left
      intro he
      have h1 := names_dst_validator hr (hs.validator lang hl)
      rw [he, names_join_plain hr] at h1
      · have := List.append_cancel_left h1
        simp only [List.cons.injEq, and_true, true_and] at this
        rw [this] at hx
        simp at hx
      · intro e he
        simp only [List.mem_cons, List.not_mem_nil, or_false] at he
        rcases he with rfl | rfl | rfl
        · exact name_validator
        · exact name_bin
        · exact hn
    · exact Or.inr hn
  have hmd : ∀ ia, j.interactive = some ia → ∀ p x, names p = names j.root ++ [c!"validator", c!"bin", x] →
      join [j.root, c!"Main/bin/Main." ++ extension ia.parentLang] ≠ p := by
    intro ia hi p x hp he
    have h1 := names_dst_main hr (hs.parent ia hi)
    rw [he, hp] at h1
    have := List.append_cancel_left h1
    simp at this
  constructor
  · cases hi : j.interactive with
    | none => cases j.validator <;> simp
    | some ia =>
      cases hv : j.validator with
      | none => simp
      | some lang =>
        simp only [List.cons_append, List.nil_append, List.nodup_cons, List.mem_singleton, List.not_mem_nil,
          not_false_eq_true, List.nodup_nil, and_true]
        exact hmd ia hi _ _ (names_dst_validator hr (hs.validator lang hv))
  · intro d hd
    constructor
    · unfold copyTargets
      rw [List.append_assoc]
      exact List.mem_append_right _ hd
    · rcases List.mem_append.1 hd with hd | hd
      · cases hi : j.interactive with
        | none => simp [hi] at hd
        | some ia =>
          simp only [hi, List.mem_singleton] at hd
          subst hd
          simp only [List.mem_cons, List.not_mem_nil, or_false, not_or]
          exact ⟨hmd ia hi _ _ (names_dataIn hr), hmd ia hi _ _ (names_dataOut hr), hmd ia hi _ _ (names_metaIn hr)⟩
      · cases hv : j.validator with
        | none => simp [hv] at hd
        | some lang =>
          simp only [hv, List.mem_singleton] at hd
          subst hd
          simp only [List.mem_cons, List.not_mem_nil, or_false, not_or]
          refine ⟨?_, ?_, ?_⟩
          · exact (hvd lang hv c!"data.in" (by decide)).resolve_right (by decide)
          · exact (hvd lang hv c!"data.out" (by decide)).resolve_right (by decide)
          · exact (hvd lang hv c!"meta.in" (by decide)).resolve_right (by decide)

/-- A file system in which every name has a file of its own, and the directory of the run is empty. -/
structure Fresh (j : Job) (fs : FS) : Prop where
  bound : ∀ p i, fs.ino p = some i → i < fs.next
  own : ∀ p q i, fs.ino p = some i → fs.ino q = some i → p = q
  empty : ∀ p, Within j.root p → fs.ino p = none

theorem src_not_within {j : Job} (ha : Apart j) (hs : NoSlashes j) :
    (∀ ia, j.interactive = some ia →
      ¬ Within j.root (join [j.inputPath, c!"interactive/Main." ++ extension ia.parentLang])) ∧
    (∀ lang, j.validator = some lang → ¬ Within j.root (join [j.inputPath, c!"validator." ++ lang])) := by
  constructor
  · intro ia hi
    apply ha.notWithin
    refine ⟨(rooted_join ha.input _).symm, ?_⟩
    have he : elems (c!"interactive/Main." ++ extension ia.parentLang) =
        [c!"interactive", c!"Main." ++ extension ia.parentLang] := by
      have e1 : c!"interactive/Main." ++ extension ia.parentLang = c!"interactive" ++ '/' ::
          (c!"Main." ++ extension ia.parentLang) := by simp
      rw [e1, elems_append_slash, elems_noslash (by decide), elems_noslash]
      · rfl
      · simp only [List.mem_append, not_or]
        exact ⟨by decide, slash_extension (hs.parent ia hi)⟩
    rw [Files.names_join_names ha.input]
    · exact List.prefix_append _ _
    · simp only [List.flatMap_cons, List.flatMap_nil, List.append_nil, he]
      intro e hm
      simp only [List.mem_cons, List.not_mem_nil, or_false] at hm
      rcases hm with rfl | rfl
      · decide
      · exact name_ext (a := c!"Main") (by decide) (by decide) (slash_extension (hs.parent ia hi))
  · intro lang hl
    apply ha.notWithin
    apply within_join ha.input
    intro e he
    rw [List.mem_singleton.1 he]
    exact name_ext (a := c!"validator") (by decide) (by decide) (hs.validator lang hl)

/-- What holds when the validation starts. -/
theorem beforeValidation_spec {j : Job} (ha : Apart j) (hs : NoSlashes j) {bs : List Binary} {ops : List Op}
    (ho : setupOps j bs = some ops) (hw : ∀ p c, Op.write p c ∈ ops → Free j p)
    (steps : List (Op × Bool × CopyEnv)) (hsteps : steps.map Prod.fst = ops)
    (writes : List (Str × Str)) (hwr : ∀ w ∈ writes, Free j w.1) {fs : FS} (hf : Fresh j fs) :
    Good (· ∈ copyTargets j) (Free j) (beforeValidation steps writes fs).1 ∧
    (∀ q, ¬ Within j.root q → (beforeValidation steps writes fs).1.read q = fs.read q) ∧
    (∀ q ∈ [dataIn j, dataOut j, metaIn j], (beforeValidation steps writes fs).1.read q = none) := by
  have hg : Good (· ∈ copyTargets j) (Free j) fs :=
    ⟨hf.bound, fun p q i h1 h2 h3 => absurd (hf.own p q i h1 h2) h3⟩
  have hmem : ∀ s ∈ steps, s.1 ∈ ops := fun s hs' => by
    rw [← hsteps]; exact List.mem_map.2 ⟨s, hs', rfl⟩
  have hcop : copied steps = setupTargets j := (copied_eq steps).trans (by rw [hsteps]; exact setup_copied ho)
  obtain ⟨hnd, hct⟩ := setup_copied_nodup ha.root hs
  rw [← hcop] at hnd hct
  have hsrc := src_not_within ha hs
  have hemp : ∀ p, Within j.root p → fs.read p = none := fun p hp => (ino_none_iff fs p).1 (hf.empty p hp)
  obtain ⟨e1, e2'⟩ := exec_spec steps hg
    (fun s hs' p c he => hw p c (he ▸ hmem s hs'))
    (by
      intro s hs' a b he
      have hm := hmem s hs'
      rw [he] at hm
      have hb : b ∈ copied steps := by
        unfold copied
        exact List.mem_filterMap.2 ⟨s, hs', by rw [he]; rfl⟩
      refine ⟨(hct b hb).1, fun hfr => hfr.2 (hct b hb).1, ?_⟩
      rcases setup_copies ho hm with ⟨ia, hi, rfl, _⟩ | ⟨lang, hl, rfl, _⟩
      · exact fun hfr => hsrc.1 ia hi hfr.1
      · exact fun hfr => hsrc.2 lang hl hfr.1)
    hnd
    (fun d hd => hemp d (copyTargets_within ha.root hs (hct d hd).1))
  have e2 : ∀ q, ¬ Free j q → q ∉ copied steps → (execOps steps fs).1.read q = fs.read q := by
    intro q hq
    apply e2' q
    intro s hs' c he
    exact hq (hw q c (he ▸ hmem s hs'))
  have hnf : ∀ q, ¬ Within j.root q → ¬ Free j q ∧ q ∉ copied steps :=
    fun q hq => ⟨fun h => hq h.1, fun h => hq (copyTargets_within ha.root hs (hct q h).1)⟩
  have hdd : ∀ q ∈ [dataIn j, dataOut j, metaIn j], (¬ Free j q ∧ q ∉ copied steps) ∧ fs.read q = none := by
    intro q hq
    have hqt : q ∈ copyTargets j := by
      unfold copyTargets
      exact List.mem_append_left _ (List.mem_append_left _ hq)
    exact ⟨⟨fun h => h.2 hqt, fun h => (hct q h).2 hq⟩, hemp q (copyTargets_within ha.root hs hqt)⟩
  unfold beforeValidation
  cases hx : execOps steps fs with
  | mk fs1 err =>
    rw [hx] at e1 e2
    simp only at e1 e2
    cases err with
    | true =>
      refine ⟨e1, fun q hq => e2 q (hnf q hq).1 (hnf q hq).2, fun q hq => ?_⟩
      have := hdd q hq
      exact (e2 q this.1.1 this.1.2).trans this.2
    | false =>
      obtain ⟨w1, w2⟩ := writes_spec writes hwr e1
      refine ⟨w1, fun q hq => (w2 q (hnf q hq).1).trans (e2 q (hnf q hq).1 (hnf q hq).2), fun q hq => ?_⟩
      have := hdd q hq
      exact (w2 q this.1.1).trans ((e2 q this.1.1 this.1.2).trans this.2)

/-- **C92**, given that nothing but copying writes to the names that hold copies: grading a run changes no file
outside of the directory of the run, hence none of the input, whatever the steps of setting up answer, whatever is
written in between, and whatever validating the cases does. -/
theorem C92_input_unmodified_partial {j : Job} (ha : Apart j) (hs : NoSlashes j) {bs : List Binary} {ops : List Op}
    (ho : setupOps j bs = some ops) (hw : ∀ p c, Op.write p c ∈ ops → Within j.root p ∧ p ∉ copyTargets j)
    (steps : List (Op × Bool × CopyEnv)) (hsteps : steps.map Prod.fst = ops)
    (writes : List (Str × Str)) (hwr : ∀ w ∈ writes, Within j.root w.1 ∧ w.1 ∉ copyTargets j)
    (vs : List Validated) (hc : ∀ v ∈ vs, '/' ∉ v.case) (hrem : ∀ v ∈ vs, ∀ t, v.env.remove t = true)
    {fs : FS} (hf : Fresh j fs) (q : Str) (hq : ¬ Within j.root q) :
    (grading j steps writes vs fs).1.read q = fs.read q := by
  obtain ⟨b1, b2, -⟩ := beforeValidation_spec ha hs ho hw steps hsteps writes hwr hf
  unfold grading
  cases hx : beforeValidation steps writes fs with
  | mk fs1 err =>
    rw [hx] at b1 b2
    cases err with
    | true => exact b2 q hq
    | false =>
      cases hv : j.validator with
      | none => exact b2 q hq
      | some lang =>
        have hg : Good (· ∈ copyTargets j) (Written j) fs1 := b1.weaken fun p hp => free_of_written ha.root hs hp
        obtain ⟨-, k2, -⟩ := validate_keeps ha hs lang vs hc hrem hg
        simp only
        rw [k2 q]
        · exact b2 q hq
        · intro hm
          apply hq
          apply copyTargets_within ha.root hs
          unfold copyTargets
          exact List.mem_append_left _ (List.mem_append_left _ hm)
        · exact fun hm => hq (written_within ha.root hm)

theorem lastOutput_eq (out : Str → Option Str) (b : Option Str) (cs : List Str) :
    lastOutput out b cs = (cs.reverse.findSome? out).or b := by
  induction cs generalizing b with
  | nil => simp [lastOutput]
  | cons c cs ih =>
    rw [lastOutput, ih, List.reverse_cons, List.findSome?_append]
    cases h1 : cs.reverse.findSome? out with
    | some x => simp
    | none => cases h2 : out c <;> simp [h2]

/-- **C87**, given that nothing but copying writes to the names that hold copies. When the custom validator is
called for a case, its standard input is what the contestant's program printed for that case, `data.in` and `meta.in` next to it are the input of that case and the metadata of the run on it,
or not there, and so is `data.out` when the case has an expected output. If all copies work, it is called, the
former two are there, and `data.out` is the expected output of the last case validated so far, this one included,
that has one. So for a case without an expected output it can be the one of another case: see `C87_stale`. -/
theorem C87_view_partial {j : Job} (ha : Apart j) (hs : NoSlashes j) {bs : List Binary} {ops : List Op}
    (ho : setupOps j bs = some ops) (hw : ∀ p c, Op.write p c ∈ ops → Within j.root p ∧ p ∉ copyTargets j)
    (steps : List (Op × Bool × CopyEnv)) (hsteps : steps.map Prod.fst = ops)
    (writes : List (Str × Str)) (hwr : ∀ w ∈ writes, Within j.root w.1 ∧ w.1 ∉ copyTargets j)
    {lang : Str} (hv : j.validator = some lang)
    (pre : List Validated) (v : Validated) (post : List Validated)
    (hc : ∀ w ∈ pre ++ v :: post, '/' ∉ w.case) (hrem : ∀ w ∈ pre ++ v :: post, ∀ t, w.env.remove t = true)
    {fs : FS} (hf : Fresh j fs) (hok : (beforeValidation steps writes fs).2 = false) :
    ∃ inv, (grading j steps writes (pre ++ v :: post) fs).2[pre.length]? = some (v.case, inv) ∧
      (∀ i, inv = some i →
        (values c!"-0" i.params = [runOut j v.case] ∧
          i.fs.read (runOut j v.case) = (beforeValidation steps writes fs).1.read (runOut j v.case)) ∧
        (i.fs.read (dataIn j) = fs.read (caseIn j v.case) ∨ i.fs.read (dataIn j) = none) ∧
        (i.fs.read (metaIn j) = (beforeValidation steps writes fs).1.read (caseMeta j v.case) ∨
          i.fs.read (metaIn j) = none) ∧
        ((fs.read (caseOut j v.case)).isSome →
          i.fs.read (dataOut j) = fs.read (caseOut j v.case) ∨ i.fs.read (dataOut j) = none)) ∧
      ((∀ w ∈ pre ++ v :: post, ∀ t, (w.env.copy t).Works) → ∃ i, inv = some i ∧
        i.fs.read (dataIn j) = fs.read (caseIn j v.case) ∧
        i.fs.read (metaIn j) = (beforeValidation steps writes fs).1.read (caseMeta j v.case) ∧
        i.fs.read (dataOut j) = (pre ++ [v]).reverse.findSome? fun w => fs.read (caseOut j w.case)) := by
  obtain ⟨b1, b2, b3⟩ := beforeValidation_spec ha hs ho hw steps hsteps writes hwr hf
  unfold grading
  cases hx : beforeValidation steps writes fs with
  | mk fs1 err =>
    rw [hx] at b1 b2 b3 hok
    simp only at b1 b2 b3 hok
    subst hok
    simp only [hv]
    have hg : Good (· ∈ copyTargets j) (Written j) fs1 := b1.weaken fun p hp => free_of_written ha.root hs hp
    obtain ⟨inv, h1, h2⟩ := validate_view ha hs lang pre v post hc hrem hg
    obtain ⟨-, -, k3⟩ := validate_keeps ha hs lang pre (fun w hw => hc w (by simp [hw]))
      (fun w hw => hrem w (by simp [hw])) hg
    have nin : ∀ w ∈ pre ++ v :: post, ¬ Within j.root (caseIn j w.case) ∧ ¬ Within j.root (caseOut j w.case) :=
      fun w hw => ⟨ha.notWithin (within_case ha.input (hc w hw) (by decide) (by decide)),
        ha.notWithin (within_case ha.input (hc w hw) (by decide) (by decide))⟩
    have hv' := nin v (by simp)
    have e1 : fs1.read (caseIn j v.case) = fs.read (caseIn j v.case) := b2 _ hv'.1
    have e2 : fs1.read (caseOut j v.case) = fs.read (caseOut j v.case) := b2 _ hv'.2
    refine ⟨inv, h1, fun i hi => ⟨h2.stdin i hi, ?_, h2.runMeta i hi, ?_⟩, fun hworks => ?_⟩
    · rw [← e1]; exact h2.input i hi
    · rw [← e2]; exact h2.output i hi
    · obtain ⟨i, hi, w1, w2, w3⟩ := h2.works (hworks v (by simp))
      refine ⟨i, hi, w1.trans e1, w2, ?_⟩
      rw [List.reverse_append, List.reverse_singleton, List.singleton_append, List.findSome?_cons]
      rw [e2] at w3
      cases hoo : fs.read (caseOut j v.case) with
      | some x =>
        rw [hoo] at w3
        exact w3 rfl
      | none =>
        simp only
        have h3 := h2.stale i hi (e2.trans hoo)
        rw [h3, k3 (fun w hw => hworks w (by simp [hw])), b3 (dataOut j) (by simp), lastOutput_eq, Option.or_none,
          ← List.map_reverse, List.findSome?_map]
        have : ∀ l : List Validated, (∀ w ∈ l, w ∈ pre) →
            l.findSome? ((fun c => fs1.read (caseOut j c)) ∘ Validated.case) =
            l.findSome? fun w => fs.read (caseOut j w.case) := by
          intro l
          induction l with
          | nil => intro _; rfl
          | cons w l ih =>
            intro hl
            rw [List.findSome?_cons, List.findSome?_cons, ih (fun w hw => hl w (by simp [hw]))]
            simp only [Function.comp]
            rw [b2 _ (nin w (by simp [hl w (by simp)])).2]
        exact this _ (fun w hw => by simpa using hw)

/-! ## What is written -/

/-- A name two or more levels below the directory of the run but not in a `bin` directory holds no copy, nor does one
in a `bin` directory other than those of the validator and of the parent. -/
theorem free_of_names {j : Job} (hr : j.root ≠ []) (hs : NoSlashes j) {p : Str} (hp : rooted p = rooted j.root)
    {es : List Str} (hn : names p = names j.root ++ es)
    (h : ∀ d e, es = [d, c!"bin", e] → d ≠ c!"validator" ∧
      ∀ ia, j.interactive = some ia → [d, e] ≠ [c!"Main", c!"Main." ++ extension ia.parentLang]) : Free j p := by
  refine ⟨⟨hp.symm, by rw [hn]; exact List.prefix_append _ _⟩, fun ht => ?_⟩
  have key : ∀ es', names p = names j.root ++ es' → es = es' := fun es' he => by
    rw [hn] at he; exact List.append_cancel_left he
  unfold copyTargets at ht
  rcases List.mem_append.1 ht with ht | ht
  · rcases List.mem_append.1 ht with ht | ht
    · simp only [List.mem_cons, List.not_mem_nil, or_false] at ht
      rcases ht with rfl | rfl | rfl
      · exact (h _ _ (key _ (names_dataIn hr))).1 rfl
      · exact (h _ _ (key _ (names_dataOut hr))).1 rfl
      · exact (h _ _ (key _ (names_metaIn hr))).1 rfl
    · cases hi : j.interactive with
      | none => simp [hi] at ht
      | some ia =>
        simp only [hi, List.mem_singleton] at ht
        subst ht
        exact (h _ _ (key _ (names_dst_main hr (hs.parent ia hi)))).2 ia hi rfl
  · cases hv : j.validator with
    | none => simp [hv] at ht
    | some lang =>
      simp only [hv, List.mem_singleton] at ht
      subst ht
      exact (h _ _ (key _ (names_dst_validator hr (hs.validator lang hv)))).1 rfl

theorem names_join_skip {d e : Str} (hd : d ≠ []) (he : Name e) : names (join [d, [], e]) = names d ++ [e] := by
  have h1 := Files.names_join_names hd (es := [e]) (by simpa [elems_noslash he.1.2.2] using he)
  rw [names_join hd] at h1 ⊢
  simpa [elems_noslash he.1.2.2, show elems ([] : Str) = [[]] from rfl, push] using h1

/-- What omegajail writes for a program with a plain name, when compiling and when running a case. -/
theorem C92_outputs_free {j : Job} (hr : j.root ≠ []) (hs : NoSlashes j) (b : Binary) (hn : Name b.name)
    (hp : b.outputPathPrefix = [] ∨ Name b.outputPathPrefix) (case : Str) (hc : '/' ∉ case) :
    (∀ p ∈ [(compileCall j b).output, (compileCall j b).error, (compileCall j b).metaFile],
      Within j.root p ∧ p ∉ copyTargets j) ∧
    (∀ p ∈ [(runCall j case b).output, (runCall j case b).error, (runCall j case b).metaFile],
      Within j.root p ∧ p ∉ copyTargets j) := by
  have hC : ∀ e : Str, Name e → Free j (join [join [j.root, b.name], e]) := by
    intro e he
    rw [join_join hr]
    refine free_of_names hr hs (rooted_join hr _) (names_join_plain hr ?_) ?_
    · intro x hx
      simp only [List.cons_append, List.nil_append, List.mem_cons, List.not_mem_nil, or_false] at hx
      rcases hx with rfl | rfl
      · exact hn
      · exact he
    · intro d e' h; simp at h
  have hR : ∀ e : Str, '/' ∉ e → 3 ≤ e.length → Free j (join [j.root, b.outputPathPrefix, case ++ e]) := by
    intro e he hl
    have hnm := name_long hc he hl
    rcases hp with hp | hp
    · have : names (join [j.root, b.outputPathPrefix, case ++ e]) = names j.root ++ [case ++ e] := by
        rw [hp]
        exact names_join_skip hr hnm
      refine free_of_names hr hs (rooted_join hr _) this ?_
      intro d e' h; simp at h
    · refine free_of_names hr hs (rooted_join hr _) (names_join_plain hr ?_) ?_
      · intro x hx
        simp only [List.mem_cons, List.not_mem_nil, or_false] at hx
        rcases hx with rfl | rfl
        · exact hp
        · exact hnm
      · intro d e' h; simp at h
  constructor
  · intro p hp
    simp only [compileCall, List.mem_cons, List.not_mem_nil, or_false] at hp
    rcases hp with rfl | rfl | rfl
    · exact hC _ (by decide)
    · exact hC _ (by decide)
    · exact hC _ (by decide)
  · intro p hp
    simp only [runCall, List.mem_cons, List.not_mem_nil, or_false] at hp
    rcases hp with rfl | rfl | rfl
    · exact hR _ (by decide) (by decide)
    · exact hR _ (by decide) (by decide)
    · exact hR _ (by decide) (by decide)

theorem names_bin_file {root name f : Str} (hr : root ≠ []) (hn : Name name) (hf : Name f) :
    names (join [root, name ++ c!"/bin/" ++ f]) = names root ++ [name, c!"bin", f] := by
  have he : elems (name ++ c!"/bin/" ++ f) = [name, c!"bin", f] := by
    have e1 : name ++ c!"/bin/" ++ f = name ++ '/' :: (c!"bin" ++ '/' :: f) := by simp
    rw [e1, elems_append_slash, elems_append_slash, elems_noslash hn.1.2.2, elems_noslash (by decide),
      elems_noslash hf.1.2.2]
    rfl
  rw [Files.names_join_names hr]
  · simp only [List.flatMap_cons, List.flatMap_nil, List.append_nil, he]
  · simp only [List.flatMap_cons, List.flatMap_nil, List.append_nil, he]
    intro e hm
    simp only [List.mem_cons, List.not_mem_nil, or_false] at hm
    rcases hm with rfl | rfl | rfl
    · exact hn
    · decide
    · exact hf

/-- The settings of an interactive problem whose files get in each other's way nowhere: all names are plain, no
interface is called `validator`, and the interface `Main` has no file with the name of the problem's `Main`. -/
structure Tidy (j : Job) (ia : Interactive) : Prop where
  names : ∀ f ∈ ia.interfaces, Name f.1 ∧ f.1 ≠ c!"validator"
  files : ∀ f ∈ ia.interfaces, ∀ l ∈ f.2, ∀ g ∈ l.2.files, Name (base g.1) ∧
    (f.1 = c!"Main" → base g.1 ≠ c!"Main." ++ extension ia.parentLang)
  moduleName : Name (ia.moduleName ++ '.' :: extension j.language)

theorem get_mem {α : Type} {k : Str} {l : List (Str × α)} {v : α} (h : get k l = some v) : (k, v) ∈ l := by
  induction l with
  | nil => simp [get] at h
  | cons p l ih =>
    obtain ⟨k', v'⟩ := p
    rw [get] at h
    split at h
    · rename_i hk
      cases h
      rw [hk]; simp
    · exact List.mem_cons_of_mem _ (ih h)

theorem ifaceOps_free {j : Job} (hr : j.root ≠ []) (hs : NoSlashes j) {ia : Interactive}
    (hi : j.interactive = some ia) (ht : Tidy j ia) {ifaces : List Str} {name : Str} {langs : List (Str × Iface)}
    (hm : (name, langs) ∈ ia.interfaces) {ops : List Op} (h : ifaceOps j ia ifaces name langs = some ops)
    {p c : Str} (hp : Op.write p c ∈ ops) : Free j p := by
  have hn := ht.names _ hm
  have key : ∀ f : Str, Name f → (name = c!"Main" → f ≠ c!"Main." ++ extension ia.parentLang) →
      Free j (join [j.root, name ++ c!"/bin/" ++ f]) := by
    intro f hf hne
    refine free_of_names hr hs (rooted_join hr _) (names_bin_file hr hn.1 hf) ?_
    intro d e he
    simp only [List.cons.injEq, and_true] at he
    obtain ⟨rfl, -, rfl⟩ := he
    refine ⟨hn.2, fun ia' hi' hc => ?_⟩
    rw [hi] at hi'
    cases hi'
    simp only [List.cons.injEq, and_true] at hc
    exact hne hc.1 hc.2
  unfold ifaceOps at h
  simp only at h
  cases hg : get (if name = c!"Main" then extension ia.parentLang else extension j.language) langs with
  | none => rw [hg] at h; simp at h
  | some iface =>
    rw [hg] at h
    simp only [Option.some.injEq] at h
    subst h
    rcases List.mem_append.1 hp with hp | hp
    · obtain ⟨g, hg', he⟩ := List.mem_map.1 hp
      have := ht.files _ hm _ (get_mem hg) g hg'
      rw [← (Op.write.inj he).1]
      exact key _ this.1 this.2
    · by_cases hM : name = c!"Main"
      · rw [if_pos hM] at hp
        simp at hp
      · rw [if_neg hM] at hp
        simp only [List.mem_cons, Op.write.injEq, List.not_mem_nil, reduceCtorEq, or_false] at hp
        rw [hp.1]
        have := key _ ht.moduleName (fun h => absurd h hM)
        simpa using this

/-- What setting up writes holds no copy: for a problem that is not interactive, and for a tidy one. -/
theorem C92_setup_free {j : Job} (hr : j.root ≠ []) (hs : NoSlashes j) (hl : '/' ∉ j.language)
    (ht : ∀ ia, j.interactive = some ia → Tidy j ia) {bs : List Binary} {ops : List Op}
    (ho : setupOps j bs = some ops) (p c : Str) (hp : Op.write p c ∈ ops) :
    Within j.root p ∧ p ∉ copyTargets j := by
  have hv : ∀ {o : List Op}, Op.write p c ∈ (o ++ match j.validator with
      | some lang =>
        [Op.mkdir (validatorBin j),
         Op.copy (join [j.inputPath, c!"validator." ++ lang])
           (join [validatorBin j, c!"validator." ++ extension lang])]
      | none => []) → Op.write p c ∈ o := by
    intro o ho
    rcases List.mem_append.1 ho with ho | ho
    · exact ho
    · cases hval : j.validator <;> simp [hval] at ho
  unfold setupOps at ho
  simp only at ho
  cases hi : j.interactive with
  | none =>
    simp only [hi, Option.map_some, Option.some.injEq] at ho
    subst ho
    have := hv hp
    simp only [List.mem_cons, Op.write.injEq, List.not_mem_nil, reduceCtorEq, or_false, false_or] at this
    rw [this.1, join_join hr]
    refine free_of_names hr hs (rooted_join hr _) (names_join_plain hr ?_) ?_
    · intro x hx
      simp only [List.cons_append, List.nil_append, List.mem_cons, List.not_mem_nil, or_false] at hx
      rcases hx with rfl | rfl | rfl
      · exact name_Main
      · exact name_bin
      · exact name_ext (a := c!"Main") (by decide) (by decide) (slash_extension hl)
    · intro d e he
      simp only [List.cons_append, List.nil_append, List.cons.injEq, and_true] at he
      rw [← he.1]
      exact ⟨by decide, fun ia hia => by rw [hi] at hia; cases hia⟩
  | some ia =>
    simp only [hi] at ho
    cases hio : ifacesOps j ia (ia.interfaces.map Prod.fst) ia.interfaces with
    | none => simp [hio] at ho
    | some o =>
      simp only [hio, Option.map_some, Option.some.injEq] at ho
      subst ho
      have h1 := hv hp
      have h2 : Op.write p c ∈ o := by
        rcases List.mem_append.1 h1 with h1 | h1
        · simp [binDirs] at h1
        · rcases List.mem_cons.1 h1 with h1 | h1
          · cases h1
          · exact h1
      have : ∀ (fs : List (Str × List (Str × Iface))) (o : List Op), (∀ f ∈ fs, f ∈ ia.interfaces) →
          ifacesOps j ia (ia.interfaces.map Prod.fst) fs = some o → Op.write p c ∈ o → Free j p := by
        intro fs
        induction fs with
        | nil => intro o _ h hm; simp only [ifacesOps, Option.some.injEq] at h; subst h; simp at hm
        | cons f fs ih =>
          intro o hsub h hm
          obtain ⟨name, langs⟩ := f
          rw [ifacesOps] at h
          cases h1 : ifaceOps j ia (ia.interfaces.map Prod.fst) name langs with
          | none => simp [h1] at h
          | some o1 =>
            cases h2 : ifacesOps j ia (ia.interfaces.map Prod.fst) fs with
            | none => simp [h1, h2] at h
            | some o2 =>
              simp only [h1, h2, Option.some.injEq] at h
              subst h
              rcases List.mem_append.1 hm with hm | hm
              · exact ifaceOps_free hr hs hi (ht ia hi) (hsub _ (by simp)) h1 hm
              · exact ih o2 (fun f hf => hsub f (by simp [hf])) h2 hm
      exact this _ _ (fun _ h => h) hio h2

end Quark.Sandbox
