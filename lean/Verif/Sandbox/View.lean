import Verif.Sandbox.FSLemmas
import Verif.Sandbox.Isolation

/-! # What the custom validator finds next to it (C87), and that grading leaves the input alone (C92) -/

namespace Quark.Sandbox

open Path Spec

/-! ## Paths -/

/-- `data.in`, `data.out` and `meta.in` in the directory of the validator. -/
def dataIn (j : Job) : Str := join [j.root, c!"validator", c!"bin", c!"data.in"]
def dataOut (j : Job) : Str := join [j.root, c!"validator", c!"bin", c!"data.out"]
def metaIn (j : Job) : Str := join [j.root, c!"validator", c!"bin", c!"meta.in"]

/-- The input and the expected output of a case, and the metadata of its run. -/
def caseIn (j : Job) (case : Str) : Str := join [j.inputPath, c!"cases", case ++ c!".in"]
def caseOut (j : Job) (case : Str) : Str := join [j.inputPath, c!"cases", case ++ c!".out"]
def caseMeta (j : Job) (case : Str) : Str := join [j.root, case ++ c!".meta"]

/-- What the contestant's program printed for a case. -/
def runOut (j : Job) (case : Str) : Str := join [j.root, case ++ c!".out"]

/-- The files the validator's run on a case writes. -/
def validatorFiles (j : Job) (case : Str) : List Str :=
  [join [j.root, c!"validator", case ++ c!".out"], join [j.root, c!"validator", case ++ c!".err"],
   join [j.root, c!"validator", case ++ c!".meta"]]

/-- The paths of the job are usable: the directory of the run and the input are apart. -/
structure Apart (j : Job) : Prop where
  root : j.root ≠ []
  input : j.inputPath ≠ []
  out : ¬ Within j.root j.inputPath
  out' : ¬ Within j.inputPath j.root

theorem Apart.notWithin {j : Job} (h : Apart j) {p : Str} (hp : Within j.inputPath p) : ¬ Within j.root p := by
  intro hr
  rcases within_comparable hp hr with h1 | h1
  · exact h.out' h1
  · exact h.out h1

theorem name_in {c : Str} (h : '/' ∉ c) : Name (c ++ c!".in") := by
  refine ⟨⟨by simp, ?_, ?_⟩, ?_⟩
  · intro hc
    have := congrArg List.length hc
    simp [dot] at this
  · simp only [List.mem_append, not_or]
    exact ⟨h, by decide⟩
  · intro hc
    have := congrArg List.length hc
    simp [dotdot] at this

theorem name_long {c e : Str} (h : '/' ∉ c) (he : '/' ∉ e) (hl : 3 ≤ e.length) : Name (c ++ e) := by
  refine ⟨⟨?_, ?_, ?_⟩, ?_⟩
  · intro hc
    have := congrArg List.length hc
    simp at this
    simp [this] at hl
  · intro hc
    have := congrArg List.length hc
    simp [dot] at this
    omega
  · simp only [List.mem_append, not_or]
    exact ⟨h, he⟩
  · intro hc
    have := congrArg List.length hc
    simp [dotdot] at this
    omega

theorem dataIn_eq {j : Job} (hr : j.root ≠ []) : join [validatorBin j, c!"data.in"] = dataIn j :=
  join_join hr _ _
theorem dataOut_eq {j : Job} (hr : j.root ≠ []) : join [validatorBin j, c!"data.out"] = dataOut j :=
  join_join hr _ _
theorem metaIn_eq {j : Job} (hr : j.root ≠ []) : join [validatorBin j, c!"meta.in"] = metaIn j :=
  join_join hr _ _

theorem names_dataIn {j : Job} (hr : j.root ≠ []) :
    names (dataIn j) = names j.root ++ [c!"validator", c!"bin", c!"data.in"] := names_join_plain hr (by decide)
theorem names_dataOut {j : Job} (hr : j.root ≠ []) :
    names (dataOut j) = names j.root ++ [c!"validator", c!"bin", c!"data.out"] := names_join_plain hr (by decide)
theorem names_metaIn {j : Job} (hr : j.root ≠ []) :
    names (metaIn j) = names j.root ++ [c!"validator", c!"bin", c!"meta.in"] := names_join_plain hr (by decide)

theorem names_validatorFile {j : Job} (hr : j.root ≠ []) {c e : Str} (hc : '/' ∉ c) (he : '/' ∉ e)
    (hl : 3 ≤ e.length) :
    names (join [j.root, c!"validator", c ++ e]) = names j.root ++ [c!"validator", c ++ e] := by
  apply names_join_plain hr
  intro x hx
  simp only [List.mem_cons, List.not_mem_nil, or_false] at hx
  rcases hx with rfl | rfl
  · exact name_validator
  · exact name_long hc he hl

theorem validatorFiles_names {j : Job} (hr : j.root ≠ []) {c p : Str} (hc : '/' ∉ c)
    (hp : p ∈ validatorFiles j c) : ∃ e, names p = names j.root ++ [c!"validator", e] := by
  simp only [validatorFiles, List.mem_cons, List.not_mem_nil, or_false] at hp
  rcases hp with rfl | rfl | rfl
  · exact ⟨_, names_validatorFile hr hc (by decide) (by decide)⟩
  · exact ⟨_, names_validatorFile hr hc (by decide) (by decide)⟩
  · exact ⟨_, names_validatorFile hr hc (by decide) (by decide)⟩

theorem names_caseMeta {j : Job} (hr : j.root ≠ []) {c : Str} (hc : '/' ∉ c) :
    names (caseMeta j c) = names j.root ++ [c ++ c!".meta"] := by
  apply names_join_plain hr
  intro x hx
  rw [List.mem_singleton.1 hx]
  exact name_long hc (by decide) (by decide)

theorem within_case {j : Job} (h : j.inputPath ≠ []) {c e : Str} (hc : '/' ∉ c) (he : '/' ∉ e)
    (hl : 3 ≤ e.length) : Within j.inputPath (join [j.inputPath, c!"cases", c ++ e]) := by
  apply within_join h
  intro x hx
  simp only [List.mem_cons, List.not_mem_nil, or_false] at hx
  rcases hx with rfl | rfl
  · exact name_cases
  · exact name_long hc he hl

/-- The names that copies are made to in the course of a run. -/
def copyTargets (j : Job) : List Str :=
  [dataIn j, dataOut j, metaIn j] ++
  (match j.interactive with
    | some ia => [join [j.root, c!"Main/bin/Main." ++ extension ia.parentLang]]
    | none => []) ++
  (match j.validator with
    | some lang => [join [validatorBin j, c!"validator." ++ extension lang]]
    | none => [])

/-- No text of the settings that ends up in a path has a slash. -/
structure NoSlashes (j : Job) : Prop where
  parent : ∀ ia, j.interactive = some ia → '/' ∉ ia.parentLang
  validator : ∀ lang, j.validator = some lang → '/' ∉ lang

/-- Copies are made to places in a `bin` directory, two levels below the directory of the run. -/
theorem copyTargets_names {j : Job} (hr : j.root ≠ []) (hs : NoSlashes j) {p : Str} (hp : p ∈ copyTargets j) :
    rooted p = rooted j.root ∧ ∃ d e, names p = names j.root ++ [d, c!"bin", e] := by
  unfold copyTargets at hp
  rcases List.mem_append.1 hp with hp | hp
  · rcases List.mem_append.1 hp with hp | hp
    · simp only [List.mem_cons, List.not_mem_nil, or_false] at hp
      rcases hp with rfl | rfl | rfl
      · exact ⟨rooted_join hr _, _, _, names_dataIn hr⟩
      · exact ⟨rooted_join hr _, _, _, names_dataOut hr⟩
      · exact ⟨rooted_join hr _, _, _, names_metaIn hr⟩
    · cases hi : j.interactive with
      | none => simp [hi] at hp
      | some ia =>
        simp only [hi, List.mem_singleton] at hp
        subst hp
        exact ⟨rooted_join hr _, _, _, names_dst_main hr (hs.parent ia hi)⟩
  · cases hv : j.validator with
    | none => simp [hv] at hp
    | some lang =>
      simp only [hv, List.mem_singleton] at hp
      subst hp
      exact ⟨by rw [rooted_join (validatorBin_ne hr)]; exact rooted_join hr _, _, _,
        names_dst_validator hr (hs.validator lang hv)⟩

theorem copyTargets_within {j : Job} (hr : j.root ≠ []) (hs : NoSlashes j) {p : Str} (hp : p ∈ copyTargets j) :
    Within j.root p := by
  obtain ⟨h1, d, e, h2⟩ := copyTargets_names hr hs hp
  exact ⟨h1.symm, by rw [h2]; exact List.prefix_append _ _⟩

/-- What the validators' runs write. -/
def Written (j : Job) (p : Str) : Prop := ∃ case, '/' ∉ case ∧ p ∈ validatorFiles j case

theorem written_not_target {j : Job} (hr : j.root ≠ []) (hs : NoSlashes j) {p : Str} (hw : Written j p) :
    p ∉ copyTargets j := by
  intro ht
  obtain ⟨c, hc, hp⟩ := hw
  obtain ⟨e, he⟩ := validatorFiles_names hr hc hp
  obtain ⟨_, d, e', he'⟩ := copyTargets_names hr hs ht
  rw [he] at he'
  have := congrArg List.length (List.append_cancel_left he')
  simp at this

theorem written_within {j : Job} (hr : j.root ≠ []) {p : Str} (hw : Written j p) : Within j.root p := by
  obtain ⟨c, hc, hp⟩ := hw
  obtain ⟨e, he⟩ := validatorFiles_names hr hc hp
  refine ⟨?_, by rw [he]; exact List.prefix_append _ _⟩
  simp only [validatorFiles, List.mem_cons, List.not_mem_nil, or_false] at hp
  rcases hp with rfl | rfl | rfl <;> exact (rooted_join hr _).symm

theorem caseMeta_not {j : Job} (hr : j.root ≠ []) (hs : NoSlashes j) {c : Str} (hc : '/' ∉ c) :
    ¬ Written j (caseMeta j c) ∧ caseMeta j c ∉ copyTargets j := by
  constructor
  · rintro ⟨c', hc', hp⟩
    obtain ⟨e, he⟩ := validatorFiles_names hr hc' hp
    rw [names_caseMeta hr hc] at he
    have := congrArg List.length (List.append_cancel_left he)
    simp at this
  · intro ht
    obtain ⟨_, d, e', he'⟩ := copyTargets_names hr hs ht
    rw [names_caseMeta hr hc] at he'
    have := congrArg List.length (List.append_cancel_left he')
    simp at this

theorem names_runOut {j : Job} (hr : j.root ≠ []) {c : Str} (hc : '/' ∉ c) :
    names (runOut j c) = names j.root ++ [c ++ c!".out"] := by
  apply names_join_plain hr
  intro x hx
  rw [List.mem_singleton.1 hx]
  exact name_long hc (by decide) (by decide)

theorem runOut_not {j : Job} (hr : j.root ≠ []) (hs : NoSlashes j) {c : Str} (hc : '/' ∉ c) :
    ¬ Written j (runOut j c) ∧ runOut j c ∉ copyTargets j := by
  constructor
  · rintro ⟨c', hc', hp⟩
    obtain ⟨e, he⟩ := validatorFiles_names hr hc' hp
    rw [names_runOut hr hc] at he
    have := congrArg List.length (List.append_cancel_left he)
    simp at this
  · intro ht
    obtain ⟨_, d, e', he'⟩ := copyTargets_names hr hs ht
    rw [names_runOut hr hc] at he'
    have := congrArg List.length (List.append_cancel_left he')
    simp at this

theorem runOut_ne_null {j : Job} (hr : j.root ≠ []) {c : Str} (hc : '/' ∉ c) : runOut j c ≠ c!"/dev/null" := by
  intro he
  have h1 := names_runOut hr hc
  rw [he, show names c!"/dev/null" = [c!"dev"] ++ [c!"null"] from by decide +kernel] at h1
  have h2 := List.append_inj_right' h1 rfl
  have h3 := congrArg List.reverse (List.cons.inj h2).1
  rw [List.reverse_append] at h3
  exact absurd (congrArg List.head? h3) (by simp)

/-! ## Validating -/

theorem fileLinks_validator {j : Job} (hr : j.root ≠ []) (lang case : Str) (hasOutput : Bool)
    (hout : caseOut j case ≠ c!"/dev/null") :
    fileLinks (validatorCall j lang case hasOutput) =
      (caseIn j case, dataIn j) ::
      ((if hasOutput then [(caseOut j case, dataOut j)] else []) ++ [(caseMeta j case, metaIn j)]) := by
  have e1 := dataIn_eq hr
  have e2 := dataOut_eq hr
  have e3 := metaIn_eq hr
  unfold fileLinks validatorCall
  simp only
  rw [e1, e2, e3]
  cases hasOutput with
  | true =>
    simp only [if_true]
    have hout' : join [j.inputPath, c!"cases", case ++ c!".out"] ≠ c!"/dev/null" := hout
    rw [if_pos hout']
    rfl
  | false =>
    simp only [Bool.false_eq_true, if_false, ne_eq, not_true_eq_false]
    rfl

theorem dataIn_ne_dataOut {j : Job} (hr : j.root ≠ []) : dataIn j ≠ dataOut j := by
  intro h
  have := names_dataIn hr
  rw [h, names_dataOut hr] at this
  exact absurd (List.append_cancel_left this) (by decide)

theorem dataIn_ne_metaIn {j : Job} (hr : j.root ≠ []) : dataIn j ≠ metaIn j := by
  intro h
  have := names_dataIn hr
  rw [h, names_metaIn hr] at this
  exact absurd (List.append_cancel_left this) (by decide)

theorem dataOut_ne_metaIn {j : Job} (hr : j.root ≠ []) : dataOut j ≠ metaIn j := by
  intro h
  have := names_dataOut hr
  rw [h, names_metaIn hr] at this
  exact absurd (List.append_cancel_left this) (by decide)

theorem caseOut_ne_null {j : Job} (h : j.inputPath ≠ []) {c : Str} (hc : '/' ∉ c) :
    caseOut j c ≠ c!"/dev/null" := by
  intro he
  have h1 : names (caseOut j c) = names j.inputPath ++ [c!"cases", c ++ c!".out"] := by
    apply names_join_plain h
    intro x hx
    simp only [List.mem_cons, List.not_mem_nil, or_false] at hx
    rcases hx with rfl | rfl
    · exact name_cases
    · exact name_long hc (by decide) (by decide)
  rw [he, show names c!"/dev/null" = [] ++ [c!"dev", c!"null"] from by decide +kernel] at h1
  have h2 := List.append_inj_right' h1 rfl
  simp at h2

/-- The view of the validator on one case. `fs` is the file system before. -/
structure View (j : Job) (fs : FS) (v : Validated) (prevOut : Option Str) (inv : Option Invocation) : Prop where
  stdin : ∀ i, inv = some i → values c!"-0" i.params = [runOut j v.case] ∧
    i.fs.read (runOut j v.case) = fs.read (runOut j v.case)
  input : ∀ i, inv = some i → i.fs.read (dataIn j) = fs.read (caseIn j v.case) ∨ i.fs.read (dataIn j) = none
  runMeta : ∀ i, inv = some i → i.fs.read (metaIn j) = fs.read (caseMeta j v.case) ∨ i.fs.read (metaIn j) = none
  output : ∀ i, inv = some i → (fs.read (caseOut j v.case)).isSome →
    i.fs.read (dataOut j) = fs.read (caseOut j v.case) ∨ i.fs.read (dataOut j) = none
  stale : ∀ i, inv = some i → fs.read (caseOut j v.case) = none → i.fs.read (dataOut j) = prevOut
  works : (∀ t, (v.env.copy t).Works) → ∃ i, inv = some i ∧
    i.fs.read (dataIn j) = fs.read (caseIn j v.case) ∧
    i.fs.read (metaIn j) = fs.read (caseMeta j v.case) ∧
    ((fs.read (caseOut j v.case)).isSome → i.fs.read (dataOut j) = fs.read (caseOut j v.case))

/-- One run of the validator. -/
theorem run_validator {j : Job} (ha : Apart j) (hs : NoSlashes j) (lang : Str) (v : Validated) (hc : '/' ∉ v.case)
    (hrem : ∀ t, v.env.remove t = true) {fs : FS}
    (hg : Good (· ∈ copyTargets j) (Written j) fs) :
    let r := run v.env v.outcome (validatorCall j lang v.case (fs.ino (caseOut j v.case)).isSome) fs
    Good (· ∈ copyTargets j) (Written j) r.1 ∧
    (∀ q, q ∉ [dataIn j, dataOut j, metaIn j] → ¬ Written j q → r.1.read q = fs.read q) ∧
    View j fs v (fs.read (dataOut j)) r.2 ∧
    (∀ i, r.2 = some i → r.1.read (dataOut j) = i.fs.read (dataOut j)) := by
  have hread : (fs.ino (caseOut j v.case)).isSome = (fs.read (caseOut j v.case)).isSome := by
    unfold FS.read; simp
  simp only
  rw [hread]
  generalize hb : (fs.read (caseOut j v.case)).isSome = ho
  have hlinks := fileLinks_validator ha.root lang v.case ho (caseOut_ne_null ha.input hc)
  have hni : ¬ Within j.root (caseIn j v.case) := ha.notWithin (within_case ha.input hc (by decide) (by decide))
  have hno : ¬ Within j.root (caseOut j v.case) := ha.notWithin (within_case ha.input hc (by decide) (by decide))
  have ht1 : dataIn j ∈ copyTargets j := by simp [copyTargets]
  have ht2 : dataOut j ∈ copyTargets j := by simp [copyTargets]
  have ht3 : metaIn j ∈ copyTargets j := by simp [copyTargets]
  have hm := caseMeta_not ha.root hs hc
  have hwt : ∀ p, p ∈ copyTargets j → ¬ Written j p := fun p hp hw => written_not_target ha.root hs hw hp
  have hin : ∀ p ∈ copyTargets j, caseIn j v.case ≠ p :=
    fun p hp he => hni (he ▸ copyTargets_within ha.root hs hp)
  have hon : ∀ p ∈ copyTargets j, caseOut j v.case ≠ p :=
    fun p hp he => hno (he ▸ copyTargets_within ha.root hs hp)
  have hmn : ∀ p ∈ copyTargets j, caseMeta j v.case ≠ p := fun p hp he => hm.2 (he ▸ hp)
  have hiw : ¬ Written j (caseIn j v.case) := fun hw => hni (written_within ha.root hw)
  have how : ¬ Written j (caseOut j v.case) := fun hw => hno (written_within ha.root hw)
  have n12 := dataIn_ne_dataOut ha.root
  have n13 := dataIn_ne_metaIn ha.root
  have n23 := dataOut_ne_metaIn ha.root
  -- the links
  have hmem : ∀ l ∈ fileLinks (validatorCall j lang v.case ho),
      l = (caseIn j v.case, dataIn j) ∨ l = (caseMeta j v.case, metaIn j) ∨
        (ho = true ∧ l = (caseOut j v.case, dataOut j)) := by
    rw [hlinks]
    intro l hl
    cases ho with
    | true =>
      simp only [if_true, List.singleton_append, List.mem_cons, List.not_mem_nil, or_false] at hl
      rcases hl with h | h | h
      · exact Or.inl h
      · exact Or.inr (Or.inr ⟨rfl, h⟩)
      · exact Or.inr (Or.inl h)
    | false =>
      simp only [Bool.false_eq_true, if_false, List.nil_append, List.mem_cons, List.not_mem_nil, or_false] at hl
      rcases hl with h | h
      · exact Or.inl h
      · exact Or.inr (Or.inl h)
  have hnd : ((fileLinks (validatorCall j lang v.case ho)).map Prod.snd).Nodup := by
    rw [hlinks]
    cases ho with
    | true => simp [n12, n13, n23]
    | false => simp [n13]
  obtain ⟨p1, p2, p3, p4⟩ := place_spec v.env (fileLinks (validatorCall j lang v.case ho)) hg
    (fun l _ => hrem l.2)
    (by
      intro l hl
      rcases hmem l hl with rfl | rfl | ⟨_, rfl⟩
      · exact ⟨ht1, hwt _ ht1, hiw⟩
      · exact ⟨ht3, hwt _ ht3, hm.1⟩
      · exact ⟨ht2, hwt _ ht2, how⟩)
    (by
      intro l hl m hm'
      have : m.2 ∈ copyTargets j := by
        rcases hmem m hm' with rfl | rfl | ⟨_, rfl⟩
        · exact ht1
        · exact ht3
        · exact ht2
      rcases hmem l hl with rfl | rfl | ⟨_, rfl⟩
      · exact hin _ this
      · exact hmn _ this
      · exact hon _ this)
    hnd
  have l1 : (caseIn j v.case, dataIn j) ∈ fileLinks (validatorCall j lang v.case ho) := by rw [hlinks]; simp
  have l3 : (caseMeta j v.case, metaIn j) ∈ fileLinks (validatorCall j lang v.case ho) := by rw [hlinks]; simp
  have l2 : ho = true → (caseOut j v.case, dataOut j) ∈ fileLinks (validatorCall j lang v.case ho) := by
    intro h; rw [hlinks, h]; simp
  have hstale : ho = false →
      (place v.env (fileLinks (validatorCall j lang v.case ho)) fs).1.read (dataOut j) = fs.read (dataOut j) := by
    intro h
    apply p2
    intro l hl
    rcases hmem l hl with rfl | rfl | ⟨h', _⟩
    · exact n12.symm
    · exact n23
    · rw [h] at h'; cases h'
  have hkeep : ∀ q, q ∉ [dataIn j, dataOut j, metaIn j] →
      (place v.env (fileLinks (validatorCall j lang v.case ho)) fs).1.read q = fs.read q := by
    intro q hq
    simp only [List.mem_cons, List.not_mem_nil, or_false, not_or] at hq
    apply p2
    intro l hl
    rcases hmem l hl with rfl | rfl | ⟨_, rfl⟩
    · exact hq.1
    · exact hq.2.2
    · exact hq.2.1
  unfold run
  cases hpl : place v.env (fileLinks (validatorCall j lang v.case ho)) fs with
  | mk fs1 e =>
    rw [hpl] at p1 p2 p3 p4 hstale hkeep
    simp only at p1 p2 p3 p4 hstale hkeep
    cases e with
    | true =>
      refine ⟨p1, fun q hq _ => hkeep q hq, ⟨?_, ?_, ?_, ?_, ?_, ?_⟩, ?_⟩
      · intro i hi; cases hi
      · intro i hi; cases hi
      · intro i hi; cases hi
      · intro i hi; cases hi
      · intro i hi; cases hi
      · intro hw
        have := (p4 fun l _ => hw l.2).1
        cases this
      · intro i hi; cases hi
    | false =>
      simp only
      have w1 : Written j (validatorCall j lang v.case ho).output := ⟨v.case, hc, by simp [validatorFiles, validatorCall]⟩
      have w2 : Written j (validatorCall j lang v.case ho).error := ⟨v.case, hc, by simp [validatorFiles, validatorCall]⟩
      have w3 : Written j (validatorCall j lang v.case ho).metaFile := ⟨v.case, hc, by simp [validatorFiles, validatorCall]⟩
      obtain ⟨g1, r1⟩ := write_spec p1 w1 v.outcome.output
      obtain ⟨g2, r2⟩ := write_spec g1 w2 v.outcome.error
      obtain ⟨g3, r3⟩ := write_spec g2 w3 v.outcome.metaFile
      have hrw : ∀ q, ¬ Written j q →
          (((fs1.write (validatorCall j lang v.case ho).output v.outcome.output).write
            (validatorCall j lang v.case ho).error v.outcome.error).write
            (validatorCall j lang v.case ho).metaFile v.outcome.metaFile).read q = fs1.read q := by
        intro q hq
        rw [r3, if_neg (by rintro rfl; exact hq w3), r2, if_neg (by rintro rfl; exact hq w2), r1,
          if_neg (by rintro rfl; exact hq w1)]
      refine ⟨g3, fun q hq hw => by rw [hrw q hw, hkeep q hq], ⟨?_, ?_, ?_, ?_, ?_, ?_⟩, ?_⟩
      · intro i hi; cases hi
        refine ⟨?_, hkeep _ fun h => (runOut_not ha.root hs hc).2 (by
          unfold copyTargets; exact List.mem_append_left _ (List.mem_append_left _ h))⟩
        rw [values_0]
        unfold Sandbox.stdin
        rw [show (validatorCall j lang v.case ho).input = runOut j v.case from rfl,
          if_neg (runOut_ne_null ha.root hc)]
      · intro i hi; cases hi; exact p3 rfl _ l1
      · intro i hi; cases hi; exact p3 rfl _ l3
      · intro i hi hsome; cases hi
        rw [hb] at hsome
        exact p3 rfl _ (l2 hsome)
      · intro i hi hnone; cases hi
        rw [hnone] at hb
        exact hstale hb.symm
      · intro hw
        have := (p4 fun l _ => hw l.2).2
        refine ⟨_, rfl, this _ l1, this _ l3, fun hsome => ?_⟩
        rw [hb] at hsome
        exact this _ (l2 hsome)
      · intro i hi; cases hi
        exact hrw _ (hwt _ ht2)

theorem validate_append (j : Job) (lang : Str) (a b : List Validated) (fs : FS) :
    validate j lang (a ++ b) fs =
      ((validate j lang b (validate j lang a fs).1).1,
        (validate j lang a fs).2 ++ (validate j lang b (validate j lang a fs).1).2) := by
  induction a generalizing fs with
  | nil => rfl
  | cons v a ih =>
    simp only [List.cons_append, validate, ih, List.cons_append]

theorem validate_length (j : Job) (lang : Str) (vs : List Validated) (fs : FS) :
    (validate j lang vs fs).2.length = vs.length := by
  induction vs generalizing fs with
  | nil => rfl
  | cons v vs ih => simp [validate, ih]

/-- The expected output of the last case that has one, or what was there before. -/
def lastOutput (out : Str → Option Str) (before : Option Str) : List Str → Option Str
  | [] => before
  | c :: cs => lastOutput out (if (out c).isSome then out c else before) cs

/-- What all runs of the validator leave as it was. -/
theorem validate_keeps {j : Job} (ha : Apart j) (hs : NoSlashes j) (lang : Str) (vs : List Validated)
    (hc : ∀ v ∈ vs, '/' ∉ v.case) (hrem : ∀ v ∈ vs, ∀ t, v.env.remove t = true) {fs : FS}
    (hg : Good (· ∈ copyTargets j) (Written j) fs) :
    Good (· ∈ copyTargets j) (Written j) (validate j lang vs fs).1 ∧
    (∀ q, q ∉ [dataIn j, dataOut j, metaIn j] → ¬ Written j q → (validate j lang vs fs).1.read q = fs.read q) ∧
    ((∀ v ∈ vs, ∀ t, (v.env.copy t).Works) → (validate j lang vs fs).1.read (dataOut j) =
      lastOutput (fun c => fs.read (caseOut j c)) (fs.read (dataOut j)) (vs.map Validated.case)) := by
  induction vs generalizing fs with
  | nil => exact ⟨hg, fun _ _ _ => rfl, fun _ => rfl⟩
  | cons v vs ih =>
    obtain ⟨r1, r2, r3, r4⟩ := run_validator ha hs lang v (hc v (by simp)) (hrem v (by simp)) hg
    obtain ⟨i1, i2, i3⟩ := ih (fun v hv => hc v (by simp [hv])) (fun v hv => hrem v (by simp [hv])) r1
    have hco : ∀ c, '/' ∉ c → caseOut j c ∉ [dataIn j, dataOut j, metaIn j] ∧ ¬ Written j (caseOut j c) := by
      intro c hc
      have hw : ¬ Within j.root (caseOut j c) := ha.notWithin (within_case ha.input hc (by decide) (by decide))
      refine ⟨fun hm => hw (copyTargets_within ha.root hs (by simp only [copyTargets]; simp at hm ⊢; tauto)),
        fun hm => hw (written_within ha.root hm)⟩
    rw [validate]
    rw [show join [j.inputPath, c!"cases", v.case ++ c!".out"] = caseOut j v.case from rfl]
    simp only
    refine ⟨i1, fun q hq hw => by rw [i2 q hq hw, r2 q hq hw], fun hworks => ?_⟩
    rw [i3 (fun v hv => hworks v (by simp [hv]))]
    simp only [List.map_cons, lastOutput]
    obtain ⟨i, hi, -, -, h3⟩ := r3.works (hworks v (by simp))
    have hd := r4 i hi
    have hfun : ∀ cs : List Str, (∀ c ∈ cs, '/' ∉ c) → ∀ b,
        lastOutput (fun c => (run v.env v.outcome
          (validatorCall j lang v.case (fs.ino (caseOut j v.case)).isSome) fs).1.read (caseOut j c)) b cs =
        lastOutput (fun c => fs.read (caseOut j c)) b cs := by
      intro cs
      induction cs with
      | nil => intro _ _; rfl
      | cons c cs ihc =>
        intro hcs b
        simp only [lastOutput]
        have := hco c (hcs c (by simp))
        rw [r2 _ this.1 this.2]
        exact ihc (fun c hc => hcs c (by simp [hc])) _
    have hd' : (run v.env v.outcome (validatorCall j lang v.case
        (fs.ino (caseOut j v.case)).isSome) fs).1.read (dataOut j) =
        (if (fs.read (caseOut j v.case)).isSome then fs.read (caseOut j v.case) else fs.read (dataOut j)) := by
      rw [hd]
      split
      · rename_i hsome
        exact h3 hsome
      · rename_i hnone
        exact r3.stale i hi (by simpa using hnone)
    rw [hd']
    exact hfun _ (by
      intro c hc'
      obtain ⟨v', hv', rfl⟩ := List.mem_map.1 hc'
      exact hc v' (by simp [hv'])) _

/-- The view of the validator in the course of all its runs, with respect to the file system before the first. -/
theorem validate_view {j : Job} (ha : Apart j) (hs : NoSlashes j) (lang : Str) (pre : List Validated) (v : Validated)
    (post : List Validated) (hc : ∀ w ∈ pre ++ v :: post, '/' ∉ w.case)
    (hrem : ∀ w ∈ pre ++ v :: post, ∀ t, w.env.remove t = true) {fs : FS}
    (hg : Good (· ∈ copyTargets j) (Written j) fs) :
    ∃ inv, (validate j lang (pre ++ v :: post) fs).2[pre.length]? = some (v.case, inv) ∧
      View j fs v ((validate j lang pre fs).1.read (dataOut j)) inv := by
  obtain ⟨k1, k2, -⟩ := validate_keeps ha hs lang pre (fun w hw => hc w (by simp [hw]))
    (fun w hw => hrem w (by simp [hw])) hg
  have hcv := hc v (by simp)
  obtain ⟨r1, r2, r3, r4⟩ := run_validator ha hs lang v hcv (hrem v (by simp)) k1
  refine ⟨(run v.env v.outcome (validatorCall j lang v.case
      ((validate j lang pre fs).1.ino (caseOut j v.case)).isSome) (validate j lang pre fs).1).2, ?_, ?_⟩
  · rw [validate_append]
    simp only
    rw [List.getElem?_append_right (by rw [validate_length]), validate_length, Nat.sub_self]
    rfl
  · have hw1 : ¬ Within j.root (caseIn j v.case) := ha.notWithin (within_case ha.input hcv (by decide) (by decide))
    have hw2 : ¬ Within j.root (caseOut j v.case) := ha.notWithin (within_case ha.input hcv (by decide) (by decide))
    have hsub : ∀ p, p ∈ [dataIn j, dataOut j, metaIn j] → p ∈ copyTargets j := by
      intro p hp
      unfold copyTargets
      exact List.mem_append_left _ (List.mem_append_left _ hp)
    have e1 := k2 (caseIn j v.case) (fun hm => hw1 (copyTargets_within ha.root hs (hsub _ hm)))
      (fun hm => hw1 (written_within ha.root hm))
    have e2 := k2 (caseOut j v.case) (fun hm => hw2 (copyTargets_within ha.root hs (hsub _ hm)))
      (fun hm => hw2 (written_within ha.root hm))
    have hm := caseMeta_not ha.root hs hcv
    have e3 := k2 (caseMeta j v.case) (fun h => hm.2 (hsub _ h)) hm.1
    have ho := runOut_not ha.root hs hcv
    have e4 := k2 (runOut j v.case) (fun h => ho.2 (hsub _ h)) ho.1
    constructor
    · rw [← e4]; exact r3.stdin
    · rw [← e1]; exact r3.input
    · rw [← e3]; exact r3.runMeta
    · rw [← e2]; exact r3.output
    · rw [← e2]; exact r3.stale
    · rw [← e1, ← e2, ← e3]; exact r3.works

end Quark.Sandbox
