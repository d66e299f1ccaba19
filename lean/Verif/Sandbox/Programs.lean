import Verif.Sandbox.Interactive
import Verif.Sandbox.Outputs

/-! # The pipes of interactive problems (C93), and that the program that runs is the one that was compiled (C94) -/

namespace Quark.Sandbox

open Path Spec

/-! ## C93 -/

/-- A directory outside with a place inside, as given to omegajail. -/
def pipesMount (j : Job) (name : Str) : Str := join [j.root, name, c!"pipes"] ++ c!",/home/" ++ name ++ c!"_pipes"

theorem slash_iface {d n x : Str} (hd : d ≠ []) (hn : Name n) (hx : Name x) :
    join [d, n ++ c!"/bin/" ++ x] = join [d, n, c!"bin", x] := by
  apply join_eq_of_names hd hd rfl
  rw [names_bin_file hd hn hx, names_join_plain hd]
  intro e he
  simp only [List.mem_cons, List.not_mem_nil, or_false] at he
  rcases he with rfl | rfl | rfl
  · exact hn
  · exact name_bin
  · exact hx

/-- The steps of one interface are among all steps. -/
theorem iface_sublist {j : Job} {ia : Interactive} (hi : j.interactive = some ia) {bs : List Binary} {ops : List Op}
    (ho : setupOps j bs = some ops) {f : Str × List (Str × Iface)} (hf : f ∈ ia.interfaces) :
    ∃ o, ifaceOps j ia (ia.interfaces.map Prod.fst) f.1 f.2 = some o ∧ List.Sublist o ops := by
  obtain ⟨o, val, hio, hops, -⟩ := setup_interactive hi ho
  obtain ⟨l1, l2, hll⟩ := List.append_of_mem hf
  obtain ⟨name, langs⟩ := f
  rw [hll] at hio
  obtain ⟨o1, oi, o2, eo, -, e2, -⟩ := ifacesOps_split hio
  rw [← hll] at e2
  refine ⟨oi, e2, ?_⟩
  rw [hops, eo]
  refine List.Sublist.trans ?_ (List.sublist_append_left _ val)
  refine List.Sublist.trans ?_ (List.sublist_append_right (binDirs j bs) _)
  refine List.Sublist.trans ?_ (List.sublist_cons_self _ _)
  exact (List.sublist_append_right o1 oi).trans (List.sublist_append_left _ o2)

theorem problemsetter_cases {j : Job} {bs : List Binary} (h : binaries j = .ok bs) {b : Binary} (hb : b ∈ bs)
    (ht : b.type = .problemsetter) : ∃ ia rs, j.interactive = some ia ∧ b = parentBinary j ia rs := by
  rcases binaries_mem h hb with ⟨_, _, rfl⟩ | h | ⟨ia, rs, _, _, _, he⟩ | ⟨lang, _, rfl⟩
  · simp [mainBinary] at ht
  · exact h
  · rw [he] at ht; simp [childBinary] at ht
  · simp [validatorBinary] at ht

/-- C93: every interface but `Main` has a program of the contestant, which sees a directory of pipes of its own and
nothing else but its program; the parent sees the same directory, at the same place. Setting up makes the directory,
then the two pipes in it, and in the directories of both programs the place where it is mounted. -/
theorem C93_pipes (j : Job) (ia : Interactive) (hi : j.interactive = some ia) (hmain : ia.main = c!"Main")
    (hr : j.root ≠ []) (bs : List Binary) (h : binaries j = .ok bs) (ops : List Op) (ho : setupOps j bs = some ops)
    (name : Str) (hm : name ∈ ia.interfaces.map Prod.fst) (hM : name ≠ c!"Main") (hn : Name name) (case : Str) :
    (∃ b ∈ bs, b.name = name ∧ b.type = .contestant) ∧
    (∃ b ∈ bs, b.name = c!"Main" ∧ b.type = .problemsetter) ∧
    (∀ b ∈ bs, b.type = .contestant → b.name = name →
      values c!"-b" (runParams (runCall j case b)) =
        [join [j.root, name, c!"bin"] ++ c!",/home", pipesMount j name]) ∧
    (∀ b ∈ bs, b.type = .problemsetter → pipesMount j name ∈ values c!"-b" (runParams (runCall j case b))) ∧
    [Op.mkdir (join [j.root, name, c!"pipes"]), Op.fifo (join [j.root, name, c!"pipes", c!"in"]),
      Op.fifo (join [j.root, name, c!"pipes", c!"out"])].Sublist ops ∧
    Op.mkdir (join [j.root, name, c!"bin", name ++ c!"_pipes"]) ∈ ops ∧
    Op.mkdir (join [j.root, c!"Main", c!"bin", name ++ c!"_pipes"]) ∈ ops := by
  obtain ⟨rb, h1, h2, -, h4⟩ := binaries_split h
  rcases h4 with ⟨h4, -⟩ | ⟨ia', rs, cs, h4, h5, h6⟩
  · rw [hi] at h4; cases h4
  rw [hi] at h4; cases h4
  have hsub : ∀ b ∈ rb, b ∈ bs := fun b hb => by rw [← h2] at hb; exact List.mem_of_mem_filter hb
  have hp : Name (name ++ c!"_pipes") := name_long hn.1.2.2 (by decide) (by decide)
  obtain ⟨f, hf, rfl⟩ := List.mem_map.1 hm
  have hmainIn : ∃ g ∈ ia.interfaces, g.1 = c!"Main" := by
    unfold regularBinaries at h1
    simp only [hi] at h1
    cases hg : (get ia.main ia.interfaces).bind (get ia.parentLang) with
    | none => simp [hg] at h1
    | some iface =>
      obtain ⟨v, hv, -⟩ := Option.bind_eq_some_iff.1 hg
      exact ⟨_, get_mem hv, hmain⟩
  obtain ⟨g, hg, hgM⟩ := hmainIn
  obtain ⟨o, ho1, ho2⟩ := iface_sublist hi ho hf
  obtain ⟨o', ho1', ho2'⟩ := iface_sublist hi ho hg
  refine ⟨?_, ?_, ?_, ?_, ?_, ?_, ?_⟩
  · obtain ⟨c1, -, c3⟩ := children_names h6
    have : f.1 ∈ cs.map Binary.name := by
      rw [c1, List.mem_filter]
      exact ⟨hm, by rw [hmain]; simpa using hM⟩
    obtain ⟨b, hb, hbn⟩ := List.mem_map.1 this
    exact ⟨b, hsub b (by rw [h5]; exact List.mem_cons_of_mem _ hb), hbn, c3 b hb⟩
  · exact ⟨parentBinary j ia rs, hsub _ (by rw [h5]; exact List.mem_cons_self ..), hmain, rfl⟩
  · intro b hb ht hbn
    rcases contestant_cases h hb ht with ⟨hi', _⟩ | ⟨ia', rs', _, _, _, he⟩
    · rw [hi] at hi'; cases hi'
    · rw [hbn] at he
      rw [values_b, he]
      simp only [runCall, childBinary, List.map_cons, List.map_nil, generateMountpoint, pipesMount]
      simp
  · intro b hb ht
    obtain ⟨ia', rs', hi', rfl⟩ := problemsetter_cases h hb ht
    rw [hi] at hi'; cases hi'
    rw [values_b]
    apply List.mem_cons_of_mem
    refine List.mem_map.2 ⟨generateMountpoint j.root f.1, ?_, by simp [generateMountpoint, pipesMount]⟩
    refine List.mem_map.2 ⟨f, List.mem_filter.2 ⟨hf, ?_⟩, rfl⟩
    rw [hmain]; simpa using hM
  · refine List.Sublist.trans ?_ ho2
    unfold ifaceOps at ho1
    simp only [if_neg hM] at ho1
    split at ho1
    · cases ho1
    · cases ho1
      refine List.Sublist.trans ?_ (List.sublist_append_right _ _)
      refine List.Sublist.cons _ (List.Sublist.cons _ ?_)
      rw [show join [j.root, f.1, c!"pipes", c!"in"] = join [join [j.root, f.1, c!"pipes"], c!"in"] from
          (join_join hr [f.1, c!"pipes"] [c!"in"]).symm,
        show join [j.root, f.1, c!"pipes", c!"out"] = join [join [j.root, f.1, c!"pipes"], c!"out"] from
          (join_join hr [f.1, c!"pipes"] [c!"out"]).symm]
  · refine ho2.subset ?_
    unfold ifaceOps at ho1
    simp only [if_neg hM] at ho1
    split at ho1
    · cases ho1
    · cases ho1
      rw [← slash_iface hr hn hp]
      apply List.mem_append_right
      simp
  · refine ho2'.subset ?_
    unfold ifaceOps at ho1'
    simp only [hgM, if_true] at ho1'
    split at ho1'
    · cases ho1'
    · cases ho1'
      rw [← slash_iface hr name_Main hp]
      apply List.mem_append_right
      refine List.mem_map.2 ⟨f.1, List.mem_filter.2 ⟨hm, by simpa using hM⟩, by simp⟩

/-- C93: the parent sees its own program and the pipes of all other interfaces, and nothing else. -/
theorem C93_parent_view (j : Job) (ia : Interactive) (hi : j.interactive = some ia) (bs : List Binary)
    (h : binaries j = .ok bs) (b : Binary) (hb : b ∈ bs) (ht : b.type = .problemsetter) (case : Str) :
    values c!"-b" (runParams (runCall j case b)) =
      (join [j.root, ia.main, c!"bin"] ++ c!",/home") ::
        ((ia.interfaces.map Prod.fst).filter (· ≠ ia.main)).map (pipesMount j) := by
  obtain ⟨ia', rs', hi', rfl⟩ := problemsetter_cases h hb ht
  rw [hi] at hi'; cases hi'
  rw [values_b]
  simp only [runCall, parentBinary, generateParentMountpoints, List.map_map]
  congr 1
  rw [List.filter_map, List.map_map]
  apply List.map_congr_left
  intro f _
  simp [generateMountpoint, pipesMount]

/-- C93: the pipes of different interfaces are different, outside and inside. -/
theorem C93_distinct (j : Job) (hr : j.root ≠ []) (n n' : Str) (hn : Name n) (hn' : Name n') (hne : n ≠ n') :
    join [j.root, n, c!"pipes"] ≠ join [j.root, n', c!"pipes"] ∧
    c!"/home/" ++ n ++ c!"_pipes" ≠ c!"/home/" ++ n' ++ c!"_pipes" := by
  constructor
  · intro he
    have := congrArg names he
    rw [names_join_plain hr (by simpa using ⟨hn, name_pipes⟩), names_join_plain hr (by simpa using ⟨hn', name_pipes⟩)] at this
    exact hne (List.cons.inj (List.append_cancel_left this)).1
  · intro he
    exact hne (List.append_cancel_left (List.append_cancel_right he))

/-! ## C94 -/

theorem options_compileParams {t o : Int} {c : CompileCall} {args : List Str} (h : compileParams t o c = some args) :
    ∃ rs : List Str, options args =
      [(c!"-d", c!"/home"), (c!"-b", c.chdir ++ c!",/home,1"), (c!"-1", c.output), (c!"-2", c.error),
       (c!"-M", c.metaFile), (c!"-t", Files.fmtD (t.tdiv 1000000)), (c!"-O", Files.fmtD o),
       (c!"--root", c!"/var/lib/omegajail"), (c!"--compile", c.lang), (c!"--compile-target", c.target)] ++
       (rs.map fun r => (c!"--compile-source", r)) ∧ rest args = c.extraFlags := by
  unfold compileParams at h
  cases hs : sourceParams c.chdir c.sources with
  | none => simp [hs] at h
  | some ps =>
    simp only [hs, Option.some.injEq] at h
    subst h
    obtain ⟨rs, h1, h2, h3⟩ := sourceParams_options hs (if c.extraFlags = [] then [] else c!"--" :: c.extraFlags)
    refine ⟨rs, ?_, ?_⟩
    · simp only [List.cons_append, List.nil_append]
      iterate 10 (rw [options, if_neg (by decide)])
      rw [h1, options_flags, List.append_nil]
      rfl
    · simp only [List.cons_append, List.nil_append]
      iterate 10 (rw [rest, if_neg (by decide)])
      have : ∀ (fs ps : List Str), sourceParams c.chdir fs = some ps → ∀ tail, rest (ps ++ tail) = rest tail := by
        intro fs
        induction fs with
        | nil => intro ps h tail; simp only [sourceParams, Option.some.injEq] at h; subst h; rfl
        | cons f fs ih =>
          intro ps h tail
          rw [sourceParams] at h
          split at h
          · split at h
            · rename_i r ps' _ hps
              simp only [Option.some.injEq] at h
              subst h
              simp only [List.cons_append]
              rw [rest, if_neg (by decide), ih ps' hps]
            · cases h
          · cases h
      rw [this _ _ hs, rest_extra]

theorem filterMap_sources {k : Str} (h : c!"--compile-source" ≠ k) (rs : List Str) :
    (rs.map fun r => (c!"--compile-source", r)).filterMap
      (fun o : Str × Str => if o.1 = k then some o.2 else none) = [] := by
  rw [List.filterMap_eq_nil_iff]
  intro o ho
  obtain ⟨m, -, rfl⟩ := List.mem_map.1 ho
  exact if_neg h

theorem compile_vals {t o : Int} {c : CompileCall} {args : List Str} (h : compileParams t o c = some args) :
    values c!"-b" args = [c.chdir ++ c!",/home,1"] ∧ values c!"-1" args = [c.output] ∧
    values c!"-2" args = [c.error] ∧ values c!"-M" args = [c.metaFile] ∧
    values c!"-t" args = [Files.fmtD (t.tdiv 1000000)] ∧ values c!"-O" args = [Files.fmtD o] ∧
    values c!"--compile" args = [c.lang] ∧ values c!"--compile-target" args = [c.target] ∧
    rest args = c.extraFlags := by
  obtain ⟨rs, h1, h2⟩ := options_compileParams h
  unfold values
  rw [h1]
  refine ⟨?_, ?_, ?_, ?_, ?_, ?_, ?_, ?_, h2⟩ <;>
  · rw [List.filterMap_append, filterMap_sources (by decide)]
    simp (decide := true) only [List.filterMap_cons, List.filterMap_nil, if_true, if_false, List.append_nil]

theorem values_run_target (c : RunCall) : values c!"--run-target" (runParams c) = [c.target] := by vals

/-- What omegajail is told when it compiles the program called `name`, in the configured time and output limits. -/
structure Compiled (j : Job) (name : Str) (t o : Int) (lang target : Str) (flags : List Str) (args : List Str) :
    Prop where
  /-- only the directory of the program is visible, and it can be written -/
  mounts : values c!"-b" args = [join [j.root, name, c!"bin"] ++ c!",/home,1"]
  time : values c!"-t" args = [Files.fmtD (t.tdiv 1000000)]
  output : values c!"-O" args = [Files.fmtD o]
  lang : values c!"--compile" args = [lang]
  target : values c!"--compile-target" args = [target]
  stdout : values c!"-1" args = [join [j.root, name, c!"compile.out"]]
  stderr : values c!"-2" args = [join [j.root, name, c!"compile.err"]]
  metaFile : values c!"-M" args = [join [j.root, name, c!"compile.meta"]]
  flags : rest args = flags

theorem compiled {j : Job} (hr : j.root ≠ []) {b : Binary} {t o : Int} {args : List Str}
    (h : compileParams t o (compileCall j b) = some args) :
    Compiled j b.name t o (if b.type = .validator ∧ b.language = c!"cpp" then c!"cpp11" else b.language)
      b.target b.extraFlags args := by
  obtain ⟨h1, h2, h3, h4, h5, h6, h7, h8, h9⟩ := compile_vals h
  have e : ∀ x, join [j.root, b.name, x] = join [join [j.root, b.name], x] :=
    fun x => (join_join hr [b.name] [x]).symm
  exact ⟨by rw [e]; exact h1, h5, h6, h7, h8, by rw [e]; exact h2, by rw [e]; exact h3, by rw [e]; exact h4, h9⟩

/-- C94: what a contestant's program is compiled and run as. -/
theorem C94_contestant (j : Job) (hr : j.root ≠ []) (bs : List Binary) (h : binaries j = .ok bs) (b : Binary)
    (hb : b ∈ bs) (ht : b.type = .contestant) (t o : Int) (args : List Str)
    (hargs : compileParams t o (compileCall j b) = some args) (case : Str) :
    ∃ target, (j.interactive = none → b.name = c!"Main" ∧ target = c!"Main") ∧
      (j.interactive ≠ none →
        target = if j.language ∈ [c!"py", c!"py2", c!"py3", c!"java"] then b.name ++ c!"_entry" else b.name) ∧
      Compiled j b.name t o j.language target
        (if j.interactive = none ∧ j.debug = true ∧ j.language ∈ [c!"c", c!"cpp", c!"cpp11"]
          then [c!"-static-libasan", c!"-fsanitize=address"] else []) args ∧
      values c!"--run" (runParams (runCall j case b)) = [j.language] ∧
      values c!"--run-target" (runParams (runCall j case b)) = [target] ∧
      (values c!"-b" (runParams (runCall j case b))).head? = some (join [j.root, b.name, c!"bin"] ++ c!",/home") := by
  have hc := compiled hr hargs
  rw [ht, if_neg (by simp)] at hc
  rw [values_run, values_run_target, values_b, List.head?_cons]
  rcases contestant_cases h hb ht with ⟨hi, hl, rfl⟩ | ⟨ia, rs, hi, _, _, he⟩
  · refine ⟨c!"Main", fun _ => ⟨rfl, rfl⟩, fun hn => absurd hi hn, ?_, rfl, rfl, rfl⟩
    have : (mainBinary j).extraFlags = (if j.interactive = none ∧ j.debug = true ∧
        j.language ∈ [c!"c", c!"cpp", c!"cpp11"] then [c!"-static-libasan", c!"-fsanitize=address"] else []) := by
      simp only [mainBinary, sanitized]
      congr 1
      simp [hi]
    rw [this] at hc
    exact hc
  · refine ⟨targetName j.language b.name, fun hn => (by rw [hi] at hn; cases hn), fun _ => ?_, ?_, ?_, ?_, ?_⟩
    · unfold targetName
      simp only [List.mem_cons, List.not_mem_nil, or_false]
    · rw [if_neg (by simp [hi])]
      have e1 : b.language = j.language := by rw [he]; rfl
      have e2 : b.target = targetName j.language b.name := by rw [he]; rfl
      have e3 : b.extraFlags = [] := by rw [he]; rfl
      rw [e1, e2, e3] at hc
      exact hc
    · rw [he]; rfl
    · rw [he]; rfl
    · rw [he]; rfl

/-- C94: what the parent of an interactive problem is compiled and run as. The name of its program depends on the
language of the contestant. -/
theorem C94_parent (j : Job) (hr : j.root ≠ []) (ia : Interactive) (hi : j.interactive = some ia) (bs : List Binary)
    (h : binaries j = .ok bs) (b : Binary) (hb : b ∈ bs) (ht : b.type = .problemsetter) (t o : Int) (args : List Str)
    (hargs : compileParams t o (compileCall j b) = some args) (case : Str) :
    b.name = ia.main ∧
    let lang := if ia.parentLang = c!"cpp" then c!"cpp11" else ia.parentLang
    let target := if j.language ∈ [c!"py", c!"py2", c!"py3", c!"java"] then ia.main ++ c!"_entry" else ia.main
    Compiled j ia.main t o lang target
      (if ia.parentLang ∈ [c!"c", c!"cpp", c!"cpp11"] then [c!"-Wl,-e__entry"] else []) args ∧
    values c!"--run" (runParams (runCall j case b)) = [lang] ∧
    values c!"--run-target" (runParams (runCall j case b)) = [target] ∧
    (values c!"-b" (runParams (runCall j case b))).head? = some (join [j.root, ia.main, c!"bin"] ++ c!",/home") := by
  have hc := compiled hr hargs
  rw [ht, if_neg (by simp)] at hc
  rw [values_run, values_run_target, values_b, List.head?_cons]
  obtain ⟨ia', rs', hi', rfl⟩ := problemsetter_cases h hb ht
  rw [hi] at hi'; cases hi'
  have e : targetName j.language ia.main =
      if j.language ∈ [c!"py", c!"py2", c!"py3", c!"java"] then ia.main ++ c!"_entry" else ia.main := by
    unfold targetName
    simp only [List.mem_cons, List.not_mem_nil, or_false]
  have e' : extraParentFlags ia.parentLang =
      if ia.parentLang ∈ [c!"c", c!"cpp", c!"cpp11"] then [c!"-Wl,-e__entry"] else [] := by
    unfold extraParentFlags
    simp only [List.mem_cons, List.not_mem_nil, or_false]
  refine ⟨rfl, ?_, rfl, ?_, rfl⟩
  · rw [← e, ← e']
    exact hc
  · rw [← e]; rfl

/-- C94: what the custom validator is compiled and run as: C++ is compiled as C++11, and run as what it was said to
be. -/
theorem C94_validator (j : Job) (hr : j.root ≠ []) (bs : List Binary) (h : binaries j = .ok bs) (b : Binary)
    (hb : b ∈ bs) (ht : b.type = .validator) (t o : Int) (args : List Str)
    (hargs : compileParams t o (compileCall j b) = some args) (case : Str) (hasOutput : Bool) :
    ∃ lang, j.validator = some lang ∧
      Compiled j c!"validator" t o (if lang = c!"cpp" then c!"cpp11" else lang) c!"validator" [] args ∧
      values c!"--run" (runParams (validatorCall j lang case hasOutput)) = [lang] ∧
      values c!"--run-target" (runParams (validatorCall j lang case hasOutput)) = [c!"validator"] ∧
      values c!"-b" (runParams (validatorCall j lang case hasOutput)) =
        [join [j.root, c!"validator", c!"bin"] ++ c!",/home"] := by
  have hc := compiled hr hargs
  rcases binaries_mem h hb with ⟨_, _, rfl⟩ | ⟨ia, rs, _, rfl⟩ | ⟨ia, rs, _, _, _, he⟩ | ⟨lang, hl, rfl⟩
  · simp [mainBinary] at ht
  · simp [parentBinary] at ht
  · rw [he] at ht; simp [childBinary] at ht
  · refine ⟨lang, hl, ?_, values_run _, values_run_target _, ?_⟩
    · simpa [validatorBinary] using hc
    · rw [values_b]; rfl

end Quark.Sandbox
