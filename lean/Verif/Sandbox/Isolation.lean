import Verif.Sandbox.Limits

/-! # What programs can see (C85) and what is compiled (C86) -/

namespace Quark.Sandbox

open Path Spec

/-! ## Paths -/

theorem names_join_plain {d : Str} (hd : d ≠ []) {es : List Str} (h : ∀ e ∈ es, Name e) :
    names (join (d :: es)) = names d ++ es := by
  have hs : es.flatMap elems = es := Files.flatMap_elems fun e he => (h e he).1.2.2
  rw [Files.names_join_names hd (by rw [hs]; exact h), hs]

theorem clean_join {d : Str} (hd : d ≠ []) (es : List Str) : clean (join (d :: es)) = join (d :: es) := by
  rw [join_cons hd, clean_clean]

theorem join_eq_of_names {d d' : Str} (hd : d ≠ []) (hd' : d' ≠ []) {es es' : List Str}
    (hr : rooted d = rooted d') (hn : names (join (d :: es)) = names (join (d' :: es'))) :
    join (d :: es) = join (d' :: es') :=
  (join_eq_join_iff hd hd').2 ⟨hr, hn⟩

/-- Joining step by step. -/
theorem join_join {d : Str} (hd : d ≠ []) (es fs : List Str) :
    join (join (d :: es) :: fs) = join (d :: (es ++ fs)) := by
  apply join_eq_of_names (Files.join_ne_nil hd es) hd (rooted_join hd es)
  rw [names_join (Files.join_ne_nil hd es), names_join hd, names_join hd, rooted_join hd, List.flatMap_append,
    List.foldl_append, List.reverse_reverse]

theorem within_refl (p : Str) : Within p p := ⟨rfl, List.prefix_refl _⟩

theorem within_trans {a b c : Str} (h : Within a b) (h' : Within b c) : Within a c :=
  ⟨h.1.trans h'.1, h.2.trans h'.2⟩

theorem within_join {d : Str} (hd : d ≠ []) {es : List Str} (h : ∀ e ∈ es, Name e) : Within d (join (d :: es)) :=
  ⟨(rooted_join hd es).symm, by rw [names_join_plain hd h]; exact List.prefix_append _ _⟩

/-- A path in two directories: one of them is in the other. -/
theorem within_comparable {a b p : Str} (ha : Within a p) (hb : Within b p) : Within a b ∨ Within b a := by
  rcases List.prefix_or_prefix_of_prefix ha.2 hb.2 with h | h
  · exact Or.inl ⟨ha.1.trans hb.1.symm, h⟩
  · exact Or.inr ⟨hb.1.trans ha.1.symm, h⟩

theorem name_bin : Name c!"bin" := by decide
theorem name_pipes : Name c!"pipes" := by decide
theorem name_Main : Name c!"Main" := by decide
theorem name_validator : Name c!"validator" := by decide
theorem name_cases : Name c!"cases" := by decide

/-! ## C85 -/

theorem mounted_append {d x : Str} (h : ',' ∉ d) : mounted (d ++ ',' :: x) = d := by
  unfold mounted
  induction d with
  | nil => simp
  | cons c d ih =>
    have hc : c ≠ ',' := fun hc => h (by simp [hc])
    rw [List.cons_append, List.takeWhile_cons_of_pos (by simpa using hc), ih (fun hm => h (by simp [hm]))]

theorem values_b (c : RunCall) :
    values c!"-b" (runParams c) = (c.chdir ++ c!",/home") :: c.extraMounts.map fun m => m.1 ++ ',' :: m.2 := by
  unfold values
  rw [options_runParams, List.filterMap_append]
  simp (decide := true) only [List.filterMap_cons, List.filterMap_nil, if_true, if_false, List.singleton_append]
  congr 1
  induction c.extraMounts with
  | nil => rfl
  | cons m ms ih => simp only [List.map_cons, List.filterMap_cons, if_true, ih]

theorem comma_elems {p : Str} (h : ',' ∉ p) : ∀ e ∈ elems p, ',' ∉ e := by
  induction p with
  | nil => simp [elems]
  | cons c p ih =>
    have ih := ih fun hm => h (by simp [hm])
    rw [elems]
    split
    · intro e he
      rcases List.mem_cons.1 he with rfl | he
      · simp
      · exact ih e he
    · intro e he
      cases hp : elems p with
      | nil => exact absurd hp (elems_ne_nil p)
      | cons x xs =>
        rw [hp] at he ih
        simp only [List.modifyHead_cons, List.mem_cons] at he
        rcases he with rfl | he
        · intro hm
          rcases List.mem_cons.1 hm with hm | hm
          · exact h (by rw [hm]; simp)
          · exact ih x (by simp) hm
        · exact ih e (by simp [he])

theorem comma_push {r : Bool} {acc : List Str} {e : Str} (ha : ∀ x ∈ acc, ',' ∉ x) (he : ',' ∉ e) :
    ∀ x ∈ push r acc e, ',' ∉ x := by
  have hd : ',' ∉ dotdot := by decide
  unfold push
  split
  · exact ha
  · split
    · cases acc with
      | nil =>
        intro x hx
        simp only at hx
        split at hx
        · cases hx
        · rw [List.mem_singleton.1 hx]; exact hd
      | cons t acc =>
        simp only
        split
        · intro x hx
          rcases List.mem_cons.1 hx with rfl | hx
          · exact hd
          · exact ha x hx
        · exact fun x hx => ha x (by simp [hx])
    · intro x hx
      rcases List.mem_cons.1 hx with rfl | hx
      · exact he
      · exact ha x hx

theorem comma_foldl {r : Bool} {es acc : List Str} (ha : ∀ x ∈ acc, ',' ∉ x) (he : ∀ e ∈ es, ',' ∉ e) :
    ∀ x ∈ es.foldl (push r) acc, ',' ∉ x := by
  induction es generalizing acc with
  | nil => exact ha
  | cons e es ih =>
    exact ih (comma_push ha (he e (by simp))) (fun x hx => he x (by simp [hx]))

theorem comma_slashed {ns : List Str} (h : ∀ x ∈ ns, ',' ∉ x) : ',' ∉ slashed ns := by
  induction ns with
  | nil => simp [slashed]
  | cons e ns ih =>
    have he := h e (by simp)
    have ih := ih fun x hx => h x (by simp [hx])
    cases ns with
    | nil => simpa [slashed] using he
    | cons f ns =>
      rw [slashed]
      · intro hm
        rcases List.mem_append.1 hm with hm | hm
        · exact he hm
        · rcases List.mem_cons.1 hm with hm | hm
          · exact absurd hm (by decide)
          · exact ih hm
      · simp

theorem comma_join {d : Str} (hd : d ≠ []) {es : List Str} (h : ',' ∉ d) (hes : ∀ e ∈ es, ',' ∉ e) :
    ',' ∉ join (d :: es) := by
  have hs : ',' ∉ slashed (d :: es) := comma_slashed fun x hx => by
    rcases List.mem_cons.1 hx with rfl | hx
    · exact h
    · exact hes x hx
  rw [join_cons hd]
  have hn : ∀ x ∈ names (slashed (d :: es)), ',' ∉ x := by
    unfold names
    intro x hx
    exact comma_foldl (by simp) (comma_elems hs) x (List.mem_reverse.1 hx)
  unfold clean render
  split
  · intro hm
    rcases List.mem_cons.1 hm with hm | hm
    · exact absurd hm (by decide)
    · exact comma_slashed hn hm
  · split
    · decide
    · exact comma_slashed hn

/-- The paths and names of a job are such that omegajail can tell them apart: no commas, and the name of the
program is a file name. -/
structure PlainNames (j : Job) (b : Binary) : Prop where
  root : j.root ≠ []
  name : Name b.name
  rootComma : ',' ∉ j.root
  nameComma : ',' ∉ b.name

/-- C85: the program of a contestant runs with nothing of the machine in sight but its own directory in the
directory of the run: the program, and the pipes for talking to the problem's program. Nothing is placed there for
a case, and it is given no arguments. Its standard input is the input of the case, or an empty file if it is part of an interactive problem. -/
theorem C85_contestant_view (j : Job) (bs : List Binary) (h : binaries j = .ok bs) (b : Binary) (hb : b ∈ bs)
    (ht : b.type = .contestant) (hp : PlainNames j b) (case : Str) :
    let args := runParams (runCall j case b)
    (∀ v ∈ values c!"-b" args, Within (join [j.root, b.name]) (mounted v)) ∧
    fileLinks (runCall j case b) = [] ∧
    rest args = [] ∧
    (j.interactive = none →
      join [j.inputPath, c!"cases", case ++ c!".in"] ≠ c!"/dev/null" →
      values c!"-0" args = [join [j.inputPath, c!"cases", case ++ c!".in"]]) ∧
    (j.interactive ≠ none → values c!"-0" args = [c!"/var/lib/omegajail/root/dev/null"]) := by
  have hbin : ∀ n : Str, Name n → Within (join [j.root, n]) (join [j.root, n, c!"bin"]) := by
    intro n hn
    have : join [j.root, n, c!"bin"] = join [join [j.root, n], c!"bin"] := (join_join hp.root [n] [c!"bin"]).symm
    rw [this]
    exact within_join (Files.join_ne_nil hp.root _) (by simpa using name_bin)
  have hpipes : ∀ n : Str, Name n → Within (join [j.root, n]) (join [j.root, n, c!"pipes"]) := by
    intro n hn
    have : join [j.root, n, c!"pipes"] = join [join [j.root, n], c!"pipes"] :=
      (join_join hp.root [n] [c!"pipes"]).symm
    rw [this]
    exact within_join (Files.join_ne_nil hp.root _) (by simpa using name_pipes)
  simp only
  rw [values_b, values_0, rest_runParams]
  rcases contestant_cases h hb ht with ⟨hi, _, rfl⟩ | ⟨ia, rs, hi, hm, _, he⟩
  · refine ⟨?_, rfl, rfl, fun _ hn => ?_, fun hn => absurd hi hn⟩
    · intro v hv
      simp only [runCall, mainBinary, List.map_nil, List.mem_singleton] at hv
      subst hv
      rw [mounted_append (comma_join hp.root hp.rootComma (by decide))]
      exact hbin _ name_Main
    · simp only [stdin, runCall, mainBinary, if_true]
      rw [if_neg hn]
  · have hn := hp.name
    have hc := hp.nameComma
    generalize b.name = n at he hn hc
    subst he
    refine ⟨?_, rfl, rfl, fun hn => ?_, fun _ => ?_⟩
    · intro v hv
      simp only [runCall, childBinary, List.map_cons, List.map_nil, List.mem_cons, List.not_mem_nil,
        or_false, generateMountpoint] at hv
      rcases hv with rfl | rfl
      · rw [mounted_append (comma_join hp.root hp.rootComma (by
          intro e he
          simp only [List.mem_cons, List.not_mem_nil, or_false] at he
          rcases he with rfl | rfl
          · exact hc
          · decide))]
        exact hbin n hn
      · rw [mounted_append (comma_join hp.root hp.rootComma (by
          intro e he
          simp only [List.mem_cons, List.not_mem_nil, or_false] at he
          rcases he with rfl | rfl
          · exact hc
          · decide))]
        exact hpipes n hn
    · rw [hi] at hn; cases hn
    · have e : (runCall j case (childBinary j n rs)).input = c!"/dev/null" := rfl
      unfold stdin
      rw [if_pos e]
      decide +kernel

/-- C85, consequence: with the input outside of the directory of the run (and not around it), no file of the input
— neither the expected outputs nor the inputs of other cases — is in a directory the contestant's program sees. -/
theorem C85_input_invisible_partial (j : Job) (bs : List Binary) (h : binaries j = .ok bs) (b : Binary) (hb : b ∈ bs)
    (ht : b.type = .contestant) (hp : PlainNames j b)
    (hout : ¬ Within j.root j.inputPath) (hout' : ¬ Within j.inputPath j.root)
    (case : Str) (f : Str) (hf : Within j.inputPath f)
    (v : Str) (hv : v ∈ values c!"-b" (runParams (runCall j case b))) : ¬ Within (mounted v) f := by
  intro hw
  have h1 := (C85_contestant_view j bs h b hb ht hp case).1 v hv
  have h2 : Within j.root (mounted v) :=
    within_trans (within_join hp.root (es := [b.name]) (by simpa using hp.name)) h1
  rcases within_comparable hf hw with h3 | h3
  · rcases within_comparable h3 h2 with h4 | h4
    · exact hout' h4
    · exact hout h4
  · exact hout (within_trans h2 h3)

theorem name_ext {a e : Str} (h1 : 2 ≤ a.length) (ha : '/' ∉ a) (he : '/' ∉ e) : Name (a ++ '.' :: e) := by
  refine ⟨⟨by simp, ?_, ?_⟩, ?_⟩
  · intro hc
    have := congrArg List.length hc
    simp [dot] at this
    omega
  · intro hm
    rcases List.mem_append.1 hm with hm | hm
    · exact ha hm
    · rcases List.mem_cons.1 hm with hm | hm
      · exact absurd hm (by decide)
      · exact he hm
  · intro hc
    have := congrArg List.length hc
    simp [dotdot] at this
    omega

theorem slash_extension {l : Str} (h : '/' ∉ l) : '/' ∉ extension l := by
  unfold extension
  split
  · decide
  · split
    · decide
    · split
      · decide
      · exact h

theorem ifaceOps_no_copy {j : Job} {ia : Interactive} {ifaces : List Str} {name : Str}
    {langs : List (Str × Iface)} {ops : List Op} (h : ifaceOps j ia ifaces name langs = some ops) (src dst : Str) :
    Op.copy src dst ∉ ops := by
  unfold ifaceOps at h
  simp only at h
  cases hg : get (if name = c!"Main" then extension ia.parentLang else extension j.language) langs with
  | none => rw [hg] at h; simp at h
  | some iface =>
    rw [hg] at h
    simp only [Option.some.injEq] at h
    subst h
    by_cases hm : name = c!"Main"
    · rw [if_pos hm]; simp
    · rw [if_neg hm]; simp

theorem ifacesOps_no_copy {j : Job} {ia : Interactive} {ifaces : List Str} {fs : List (Str × List (Str × Iface))}
    {ops : List Op} (h : ifacesOps j ia ifaces fs = some ops) (src dst : Str) : Op.copy src dst ∉ ops := by
  induction fs generalizing ops with
  | nil => simp only [ifacesOps, Option.some.injEq] at h; subst h; simp
  | cons f fs ih =>
    obtain ⟨name, langs⟩ := f
    rw [ifacesOps] at h
    cases h1 : ifaceOps j ia ifaces name langs with
    | none => simp [h1] at h
    | some o1 =>
      cases h2 : ifacesOps j ia ifaces fs with
      | none => simp [h1, h2] at h
      | some o2 =>
        simp only [h1, h2, Option.some.injEq] at h
        subst h
        simp [ifaceOps_no_copy h1, ih h2]

/-- Where files of the input are copied to. -/
theorem setup_copies {j : Job} {bs : List Binary} {ops : List Op} (h : setupOps j bs = some ops) {src dst : Str}
    (hm : Op.copy src dst ∈ ops) :
    (∃ ia, j.interactive = some ia ∧ src = join [j.inputPath, c!"interactive/Main." ++ extension ia.parentLang] ∧
      dst = join [j.root, c!"Main/bin/Main." ++ extension ia.parentLang]) ∨
    (∃ lang, j.validator = some lang ∧ src = join [j.inputPath, c!"validator." ++ lang] ∧
      dst = join [validatorBin j, c!"validator." ++ extension lang]) := by
  have hv : ∀ {o : List Op}, Op.copy src dst ∈ (o ++ match j.validator with
      | some lang =>
        [Op.mkdir (validatorBin j),
         Op.copy (join [j.inputPath, c!"validator." ++ lang])
           (join [validatorBin j, c!"validator." ++ extension lang])]
      | none => []) → Op.copy src dst ∈ o ∨
      (∃ lang, j.validator = some lang ∧ src = join [j.inputPath, c!"validator." ++ lang] ∧
        dst = join [validatorBin j, c!"validator." ++ extension lang]) := by
    intro o ho
    rcases List.mem_append.1 ho with ho | ho
    · exact Or.inl ho
    · cases hval : j.validator with
      | none => simp [hval] at ho
      | some lang =>
        simp only [hval, List.mem_cons, Op.copy.injEq, List.not_mem_nil, or_false, reduceCtorEq, false_or] at ho
        exact Or.inr ⟨lang, rfl, ho.1, ho.2⟩
  unfold setupOps at h
  simp only at h
  cases hi : j.interactive with
  | none =>
    simp only [hi, Option.map_some, Option.some.injEq] at h
    subst h
    rcases hv hm with hm | hm
    · simp at hm
    · exact Or.inr hm
  | some ia =>
    simp only [hi] at h
    cases ho : ifacesOps j ia (ia.interfaces.map Prod.fst) ia.interfaces with
    | none => simp [ho] at h
    | some o =>
      simp only [ho, Option.map_some, Option.some.injEq] at h
      subst h
      rcases hv hm with hm | hm
      · rcases List.mem_append.1 hm with hm | hm
        · simp [binDirs] at hm
        · rcases List.mem_cons.1 hm with hm | hm
          · exact Or.inl ⟨ia, rfl, (Op.copy.inj hm).1, (Op.copy.inj hm).2⟩
          · exact absurd hm (ifacesOps_no_copy ho _ _)
      · exact Or.inr hm

theorem names_dst_main {root lang : Str} (hr : root ≠ []) (hl : '/' ∉ lang) :
    names (join [root, c!"Main/bin/Main." ++ extension lang]) =
      names root ++ [c!"Main", c!"bin", c!"Main." ++ extension lang] := by
  have he : elems (c!"Main/bin/Main." ++ extension lang) = [c!"Main", c!"bin", c!"Main." ++ extension lang] := by
    have e1 : c!"Main/bin/Main." ++ extension lang = c!"Main" ++ '/' :: (c!"bin" ++ '/' ::
        (c!"Main." ++ extension lang)) := by simp
    rw [e1, elems_append_slash, elems_append_slash, elems_noslash (by decide), elems_noslash (by decide),
      elems_noslash]
    · rfl
    · simp only [List.mem_append, not_or]
      exact ⟨by decide, slash_extension hl⟩
  rw [Files.names_join_names hr]
  · simp only [List.flatMap_cons, List.flatMap_nil, List.append_nil, he]
  · simp only [List.flatMap_cons, List.flatMap_nil, List.append_nil, he]
    intro e hm
    simp only [List.mem_cons, List.not_mem_nil, or_false] at hm
    rcases hm with rfl | rfl | rfl
    · decide
    · decide
    · exact name_ext (a := c!"Main") (by decide) (by decide) (slash_extension hl)

theorem names_validatorBin {j : Job} (hr : j.root ≠ []) : names (validatorBin j) = names j.root ++ [c!"validator", c!"bin"] := by
  unfold validatorBin
  rw [names_join_plain hr]
  intro e he
  simp only [List.mem_cons, List.not_mem_nil, or_false] at he
  rcases he with rfl | rfl
  · exact name_validator
  · exact name_bin

theorem validatorBin_ne {j : Job} (hr : j.root ≠ []) : validatorBin j ≠ [] := Files.join_ne_nil hr _

theorem names_dst_validator {j : Job} {lang : Str} (hr : j.root ≠ []) (hl : '/' ∉ lang) :
    names (join [validatorBin j, c!"validator." ++ extension lang]) =
      names j.root ++ [c!"validator", c!"bin", c!"validator." ++ extension lang] := by
  rw [names_join_plain (validatorBin_ne hr), names_validatorBin hr]
  · simp
  · intro e he
    rw [List.mem_singleton.1 he]
    exact name_ext (a := c!"validator") (by decide) (by decide) (slash_extension hl)

/-- C85, the files that setting up puts in place: no file of the input is copied into the directory of a
contestant's program, given that the languages of the problem have no slashes, the parent's interface is called
`Main` and no interface is called `validator`. -/
theorem C85_nothing_copied (j : Job) (bs : List Binary) (h : binaries j = .ok bs) (b : Binary) (hb : b ∈ bs)
    (ht : b.type = .contestant) (hr : j.root ≠ []) (hn : Name b.name)
    (hm : ∀ ia, j.interactive = some ia → ia.main = c!"Main" ∧ '/' ∉ ia.parentLang)
    (hv : ∀ lang, j.validator = some lang → '/' ∉ lang ∧ b.name ≠ c!"validator")
    (ops : List Op) (ho : setupOps j bs = some ops) (src dst : Str) (hc : Op.copy src dst ∈ ops) :
    ¬ Within (join [j.root, b.name]) dst := by
  rintro ⟨_, hw⟩
  rw [names_join_plain hr (by simpa using hn)] at hw
  rcases setup_copies ho hc with ⟨ia, hi, -, rfl⟩ | ⟨lang, hl, -, rfl⟩
  · rw [names_dst_main hr (hm ia hi).2, List.prefix_append_right_inj] at hw
    rcases contestant_cases h hb ht with ⟨hi', _⟩ | ⟨ia', rs, hi', hne, _⟩
    · rw [hi] at hi'; cases hi'
    · rw [hi] at hi'
      cases hi'
      obtain ⟨t, ht⟩ := hw
      simp only [List.cons_append, List.nil_append, List.cons.injEq] at ht
      exact hne (by rw [ht.1, (hm ia hi).1])
  · rw [names_dst_validator hr (hv lang hl).1, List.prefix_append_right_inj] at hw
    obtain ⟨t, ht⟩ := hw
    simp only [List.cons_append, List.nil_append, List.cons.injEq] at ht
    exact (hv lang hl).2 ht.1

/-! ## C86 -/

theorem strip_spec (a b : List Str) : ∃ p, a = p ++ (strip a b).1 ∧ b = p ++ (strip a b).2 := by
  induction a generalizing b with
  | nil => exact ⟨[], by cases b <;> simp [strip], by cases b <;> simp [strip]⟩
  | cons x a ih =>
    cases b with
    | nil => exact ⟨[], by simp [strip], by simp [strip]⟩
    | cons y b =>
      rw [strip]
      by_cases h : x = y
      · rw [if_pos h]
        obtain ⟨p, h1, h2⟩ := ih b
        exact ⟨x :: p, by rw [List.cons_append, ← h1], by rw [List.cons_append, ← h2, h]⟩
      · rw [if_neg h]
        exact ⟨[], by simp, by simp⟩

theorem strip_prefix (a t : List Str) : strip a (a ++ t) = ([], t) := by
  induction a with
  | nil => cases t <;> rfl
  | cons x a ih => rw [List.cons_append, strip, if_pos rfl, ih]

theorem foldl_push_tail {r : Bool} {a t : List Str} (h : Clean r (a ++ t)) :
    t.foldl (push r) a.reverse = (a ++ t).reverse := by
  have ha : Clean r a := by
    induction t using List.reverseRecOn with
    | nil => simpa using h
    | append_singleton t e ih =>
      apply ih
      unfold Clean at h ⊢
      rw [← List.append_assoc, List.reverse_append] at h
      simp only [List.reverse_cons, List.reverse_nil, List.nil_append, List.singleton_append] at h
      exact h.tail
  rw [← foldl_push_clean ha, ← List.foldl_append, foldl_push_clean h]

/-- For a file in the directory, the relative path names that file. -/
theorem join_rel {d f : Str} (hd : d ≠ []) (h : Within d f) :
    ∃ r, rel d f = some r ∧ join [d, r] = clean f := by
  obtain ⟨hr, t, ht⟩ := h
  refine ⟨render false t, ?_, ?_⟩
  · unfold rel
    rw [if_neg (by simpa using hr), ← ht, strip_prefix]
    simp
  · have hc : Clean (rooted d) (names d ++ t) := by rw [ht, hr]; exact clean_names f
    have hel : ∀ e ∈ t, Elem e := fun e he => hc.elem e (by simp [he])
    have hn : names (join [d, render false t]) = names f := by
      rw [names_join hd]
      simp only [List.flatMap_cons, List.flatMap_nil, List.append_nil]
      by_cases hte : t = []
      · subst hte
        have : elems (render false []) = [dot] := by decide
        rw [this]
        simp only [List.foldl_cons, List.foldl_nil]
        have : push (rooted d) (names d).reverse dot = (names d).reverse := by
          unfold push; rw [if_pos (Or.inr rfl)]
        rw [this, List.reverse_reverse, ← ht, List.append_nil]
      · have : render false t = slashed t := by unfold render; simp [hte]
        rw [this, elems_slashed hte (fun e he => (hel e he).2.2), foldl_push_tail hc, List.reverse_reverse, ht]
    have := rooted_join hd [render false t]
    have hcl : clean (join [d, render false t]) = clean f := by
      rw [clean_eq_iff]
      exact ⟨by rw [this, hr], hn⟩
    rwa [clean_join hd] at hcl

theorem options_flags (es : List Str) : options (if es = [] then [] else c!"--" :: es) = [] := options_extra es

theorem sourceParams_options {d : Str} {fs ps : List Str} (h : sourceParams d fs = some ps) (tail : List Str) :
    ∃ rs : List Str, options (ps ++ tail) = (rs.map fun r => (c!"--compile-source", r)) ++ options tail ∧
      fs.map (rel d) = rs.map some ∧ ∀ f ∈ fs, d <+: f := by
  induction fs generalizing ps with
  | nil =>
    simp only [sourceParams, Option.some.injEq] at h
    subst h
    exact ⟨[], by simp, rfl, by simp⟩
  | cons f fs ih =>
    rw [sourceParams] at h
    by_cases hp : d.isPrefixOf f = true
    · rw [if_pos hp] at h
      cases hr : rel d f with
      | none => simp [hr] at h
      | some r =>
        cases hs : sourceParams d fs with
        | none => simp [hr, hs] at h
        | some ps' =>
          simp only [hr, hs, Option.some.injEq] at h
          subst h
          obtain ⟨rs, h1, h2, h3⟩ := ih hs
          refine ⟨r :: rs, ?_, by simp [hr, h2], ?_⟩
          · simp only [List.cons_append, List.map_cons]
            rw [options, if_neg (by decide), h1]
          · intro g hg
            rcases List.mem_cons.1 hg with rfl | hg
            · exact List.isPrefixOf_iff_prefix.1 hp
            · exact h3 g hg
    · rw [if_neg hp] at h
      cases h

/-- What `Compile` tells omegajail to compile: the paths from the directory to each of the sources, in order. -/
theorem compile_values {t o : Int} {c : CompileCall} {args : List Str} (h : compileParams t o c = some args) :
    ∃ rs : List Str, values c!"--compile-source" args = rs ∧ c.sources.map (rel c.chdir) = rs.map some ∧
      ∀ f ∈ c.sources, c.chdir <+: f := by
  unfold compileParams at h
  cases hs : sourceParams c.chdir c.sources with
  | none => simp [hs] at h
  | some ps =>
    simp only [hs, Option.some.injEq] at h
    subst h
    obtain ⟨rs, h1, h2, h3⟩ := sourceParams_options hs (if c.extraFlags = [] then [] else c!"--" :: c.extraFlags)
    refine ⟨rs, ?_, h2, h3⟩
    unfold values
    simp only [List.cons_append, List.nil_append]
    iterate 10 (rw [options, if_neg (by decide)])
    rw [h1, options_flags]
    simp (decide := true) only [List.filterMap_cons, if_false, List.append_nil]
    clear h1 h2
    induction rs with
    | nil => rfl
    | cons r rs ih => simp only [List.map_cons, List.filterMap_cons, if_true, ih]

theorem base_cases (q : Str) : base q = dot ∨ base q = ['/'] ∨ base q = dotdot ∨ Name (base q) := by
  unfold base
  by_cases hq : q = []
  · rw [if_pos hq]; exact Or.inl rfl
  · rw [if_neg hq]
    cases he : (elems q).filter (· ≠ []) with
    | nil => exact Or.inr (Or.inl rfl)
    | cons a l =>
      simp only
      have hne : (a :: l) ≠ [] := by simp
      have hlast : (a :: l).getLast? = some ((a :: l).getLast hne) := List.getLast?_eq_getLast_of_ne_nil hne
      rw [hlast, Option.getD_some]
      have hm : (a :: l).getLast hne ∈ (elems q).filter (· ≠ []) := by rw [he]; exact List.getLast_mem _
      rw [List.mem_filter] at hm
      generalize (a :: l).getLast hne = x at hm
      by_cases h1 : x = dot
      · exact Or.inl h1
      · by_cases h2 : x = dotdot
        · exact Or.inr (Or.inr (Or.inl h2))
        · exact Or.inr (Or.inr (Or.inr ⟨⟨by simpa using hm.2, h1, slash_notMem_elems q x hm.1⟩, h2⟩))

theorem length_slashed_lt (ns : List Str) : (slashed ns).length < (slashed (ns ++ [c!"bin"])).length := by
  induction ns with
  | nil => decide
  | cons a ns ih =>
    cases ns with
    | nil => simp [slashed]
    | cons b ns =>
      rw [show slashed (a :: b :: ns) = a ++ '/' :: slashed (b :: ns) from by rw [slashed]; simp]
      rw [show slashed (a :: b :: ns ++ [c!"bin"]) = a ++ '/' :: slashed (b :: ns ++ [c!"bin"]) from by
        simp only [List.cons_append]; rw [slashed]; simp]
      simp only [List.length_append, List.length_cons] at ih ⊢
      omega

/-- A source file as the runner names it is in the directory of the program, or refused. -/
theorem normalized_within {d q : Str} (hd : d ≠ []) {ns : List Str} (hb : names d = ns ++ [c!"bin"])
    (hcl : clean d = d) (hp : d <+: join [d, base q]) : Within d (join [d, base q]) := by
  refine ⟨(rooted_join hd _).symm, ?_⟩
  rw [names_join hd]
  simp only [List.flatMap_cons, List.flatMap_nil, List.append_nil]
  rcases base_cases q with h | h | h | h
  · rw [h]
    have : elems dot = [dot] := by decide
    rw [this]
    simp only [List.foldl_cons, List.foldl_nil]
    unfold push
    rw [if_pos (Or.inr rfl), List.reverse_reverse]
    exact List.prefix_refl _
  · rw [h]
    have : elems ['/'] = [[], []] := by decide
    rw [this]
    simp only [List.foldl_cons, List.foldl_nil]
    unfold push
    rw [if_pos (Or.inl rfl), if_pos (Or.inl rfl), List.reverse_reverse]
    exact List.prefix_refl _
  · exfalso
    rw [h] at hp
    have hn : names (join [d, dotdot]) = ns := by
      rw [names_join hd]
      simp only [List.flatMap_cons, List.flatMap_nil, List.append_nil]
      have : elems dotdot = [dotdot] := by decide
      rw [this, hb]
      simp only [List.foldl_cons, List.foldl_nil, List.reverse_append, List.reverse_cons, List.reverse_nil,
        List.nil_append, List.singleton_append]
      unfold push
      rw [if_neg (by decide), if_pos rfl]
      simp only
      rw [if_neg (by decide), List.reverse_reverse]
    have hl := hp.length_le
    have e1 : join [d, dotdot] = render (rooted d) ns := by
      rw [← clean_join hd, clean, hn, rooted_join hd]
    have e2 : d = render (rooted d) (ns ++ [c!"bin"]) := by
      conv_lhs => rw [← hcl, clean, hb]
    rw [e1] at hl
    generalize rooted d = rd at e2 hl
    rw [e2] at hl
    have := length_slashed_lt ns
    unfold render at hl
    split at hl
    · simp only [List.length_cons] at hl; omega
    · rw [if_neg (by simp)] at hl
      split at hl
      · rename_i hns
        subst hns
        revert hl
        decide
      · omega
  · have : elems (base q) = [base q] := elems_noslash h.1.2.2
    rw [this]
    simp only [List.foldl_cons, List.foldl_nil]
    unfold push
    rw [if_neg (by rintro (h' | h'); exact h.1.1 h'; exact h.1.2.1 h'), if_neg h.2]
    simp

/-- C86, for the programs of a run: whatever the problem's settings say, the compiler is told only of files in the
program's own directory: each source it is given, followed from that directory, is a source of the program and lies
in the directory. -/
theorem C86_sources_in_directory_partial (j : Job) (bs : List Binary) (h : binaries j = .ok bs) (b : Binary) (hb : b ∈ bs)
    (hroot : j.root ≠ []) (hlang : j.interactive = none → '/' ∉ j.language)
    (hv : ∀ lang, j.validator = some lang → '/' ∉ lang)
    (t o : Int) (args : List Str) (hargs : compileParams t o (compileCall j b) = some args) :
    ∀ r ∈ values c!"--compile-source" args,
      ∃ f ∈ b.sourceFiles, join [join [j.root, b.name, c!"bin"], r] = clean f ∧
        Within (join [j.root, b.name, c!"bin"]) f := by
  obtain ⟨rs, h1, h2, h3⟩ := compile_values hargs
  have hch : (compileCall j b).chdir = join [j.root, b.name, c!"bin"] := by
    show join [join [j.root, b.name], c!"bin"] = _
    rw [join_join hroot]; rfl
  rw [hch] at h2 h3
  have hne : join [j.root, b.name, c!"bin"] ≠ [] := Files.join_ne_nil hroot _
  have hns : names (join [j.root, b.name, c!"bin"]) = names (join [j.root, b.name]) ++ [c!"bin"] := by
    have : join [j.root, b.name, c!"bin"] = join [join [j.root, b.name], c!"bin"] :=
      (join_join hroot [b.name] [c!"bin"]).symm
    rw [this, names_join_plain (Files.join_ne_nil hroot _) (by simpa using name_bin)]
  have hcl : clean (join [j.root, b.name, c!"bin"]) = join [j.root, b.name, c!"bin"] := clean_join hroot _
  have hw : ∀ f ∈ b.sourceFiles, Within (join [j.root, b.name, c!"bin"]) f := by
    intro f hf
    have hp := h3 f hf
    rcases binaries_mem h hb with ⟨hi, _, rfl⟩ | ⟨ia, rs', _, rfl⟩ | ⟨ia, rs', _, _, _, he⟩ | ⟨lang, hl, rfl⟩
    · simp only [mainBinary, List.mem_singleton] at hf
      subst hf
      refine within_join hne ?_
      intro e he
      rw [List.mem_singleton.1 he]
      exact name_ext (a := c!"Main") (by decide) (by decide) (slash_extension (hlang hi))
    · simp only [parentBinary, normalizedSourceFiles, List.mem_map] at hf
      obtain ⟨q, -, rfl⟩ := hf
      exact normalized_within hne hns hcl hp
    · generalize b.name = n at *
      subst he
      simp only [childBinary, normalizedSourceFiles, List.mem_map] at hf
      obtain ⟨q, -, rfl⟩ := hf
      exact normalized_within hne hns hcl hp
    · simp only [validatorBinary, List.mem_singleton] at hf
      subst hf
      refine within_join hne ?_
      intro e he
      rw [List.mem_singleton.1 he]
      exact name_ext (a := c!"validator") (by decide) (by decide) (slash_extension (hv lang hl))
  intro r hr
  rw [h1] at hr
  have : some r ∈ b.sourceFiles.map (rel (join [j.root, b.name, c!"bin"])) := by
    have h2' : b.sourceFiles.map (rel (join [j.root, b.name, c!"bin"])) = rs.map some := h2
    rw [h2']
    exact List.mem_map.2 ⟨r, hr, rfl⟩
  obtain ⟨f, hf, hfr⟩ := List.mem_map.1 this
  obtain ⟨r', hr', hj⟩ := join_rel hne (hw f hf)
  rw [hfr] at hr'
  cases hr'
  exact ⟨f, hf, hj, hw f hf⟩

/-- C86, for `Compile` on its own: a call is refused exactly if the name of some source does not start with the
name of the directory, or there is no path to it. -/
theorem C86_refused_iff (t o : Int) (c : CompileCall) :
    compileParams t o c = none ↔ ∃ f ∈ c.sources, ¬ c.chdir <+: f ∨ rel c.chdir f = none := by
  have key : sourceParams c.chdir c.sources = none ↔ ∃ f ∈ c.sources, ¬ c.chdir <+: f ∨ rel c.chdir f = none := by
    generalize c.chdir = d
    induction c.sources with
    | nil => simp [sourceParams]
    | cons f fs ih =>
      rw [sourceParams]
      by_cases hp : d.isPrefixOf f = true
      · rw [if_pos hp]
        have hp' := List.isPrefixOf_iff_prefix.1 hp
        cases hr : rel d f with
        | none => simp [hr]
        | some r =>
          cases hs : sourceParams d fs with
          | none =>
            have := ih.1 hs
            simp only [List.exists_mem_cons_iff, hr, hp']
            simpa using this
          | some ps =>
            have hn : ¬ ∃ f ∈ fs, ¬ d <+: f ∨ rel d f = none := fun hc => by
              rw [ih.2 hc] at hs; cases hs
            simp only [List.exists_mem_cons_iff, hr, hp']
            simpa using hn
      · rw [if_neg hp]
        have hp' : ¬ d <+: f := fun hc => hp (List.isPrefixOf_iff_prefix.2 hc)
        simp [hp']
  unfold compileParams
  cases hs : sourceParams c.chdir c.sources with
  | none => simp only [true_iff]; exact key.1 hs
  | some ps =>
    constructor
    · intro hc; cases hc
    · intro hc; rw [key.2 hc] at hs; cases hs

/-- C86 is false of `Compile` on its own: a source in a directory whose name merely starts with the name of the
program's directory is accepted, and the compiler is told of a file outside. -/
theorem C86_sibling_accepted :
    let c := CompileCall.mk c!"cpp" [c!"/run/1/Main/bin2/secret.cpp"] c!"/run/1/Main/bin" c!"o" c!"e" c!"m" c!"Main" []
    (∃ args, compileParams 0 0 c = some args ∧
      values c!"--compile-source" args = [c!"../bin2/secret.cpp"]) ∧
    ¬ Within c!"/run/1/Main/bin" c!"/run/1/Main/bin2/secret.cpp" := by
  refine ⟨⟨_, rfl, by decide +kernel⟩, ?_⟩
  rintro ⟨_, h⟩
  exact absurd h (by decide +kernel)

end Quark.Sandbox
