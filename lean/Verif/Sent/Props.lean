import Verif.Sent.Unpack
import Verif.Archive.Examples

/-!
# An ephemeral run is judged with the files of its request: C181
-/

namespace Quark.Sent

open Archive

/-- What `runnerPersist` comes to for an archive of files. -/
theorem runnerPersist_files {S : Type} {io : List Bytes → Bool} {decode : Bytes → Option S} {shard id : Bytes}
    (hs : shard ≠ []) (hi : Path.Name id) {fs fs' : FS} (hfresh : Fresh fs shard id) {ok : Bool}
    {fl : List (Bytes × Bytes)} (ht : ∀ f ∈ fl, Tidy f.1) (hnd : (fl.map Prod.fst).Nodup) {s : S} {n : Nat}
    (h : runnerPersist io decode (inputPath shard id) fs ok (members fl) = some (fs', s, n)) :
    Laid fs' (Path.names shard ++ [id]) fl ∧
    (∀ r, fs' (Path.names shard ++ (id ++ dotTmp) :: r) = none) ∧
    (∀ q, ¬ (Path.names shard ++ [id]) <+: q → ¬ (Path.names shard ++ [id ++ dotTmp]) <+: q →
      (fs' q = fs q ∨ (fs q = none ∧ fs' q = some .dir ∧ q <+: Path.names shard))) ∧
    n = (fl.map fun f => f.2.length).sum ∧ ok = true ∧ ∃ c, (settingsName, c) ∈ fl ∧ decode c = some s := by
  unfold runnerPersist at h
  dsimp only at h
  have hT := names_tmp hs hi
  have hP := names_path hs hi
  have htmp : tmpOf (inputPath shard id) ≠ [] := by
    unfold tmpOf; simp
  rw [hT] at h
  obtain ⟨fs1, hm, h⟩ := Option.bind_eq_some_iff.1 h
  obtain ⟨⟨fs2, sz⟩, hu, h⟩ := Option.bind_eq_some_iff.1 h
  obtain ⟨hd1, hkeep, hout⟩ := mkdirAll_some hm
  have hfree1 : ∀ m r, fs1 (Path.names shard ++ [id ++ dotTmp] ++ m :: r) = none := by
    intro m r
    rw [hout _ (fun hp => by have := hp.length_le; simp at this)]
    have := (hfresh (m :: r)).2
    simpa using this
  obtain ⟨hL2, hd2, hout2, hn2⟩ := unpack_files htmp fl [] fs1 fs2 sz ht hnd
    (by rw [hT]; exact laid_nil hd1 hfree1) (by rw [hT]; exact hd1) hu
  rw [hT] at hL2 hd2 hout2
  rw [List.nil_append] at hL2
  dsimp only at h
  split at h
  · exact absurd h (by simp)
  · rename_i hok
    have hset : Path.names (Path.join [tmpOf (inputPath shard id), settingsName]) =
        Path.names shard ++ [id ++ dotTmp] ++ [settingsName] := by
      rw [Path.names_join_name htmp name_settings, hT]
    rw [hset] at h
    split at h
    · rename_i c hcc
      obtain ⟨s', hdec, h⟩ := Option.bind_eq_some_iff.1 h
      obtain ⟨fs3, hren, h⟩ := Option.map_eq_some_iff.1 h
      injection h with e1 h
      injection h with e2 e3
      subst e1 e2 e3
      have hin : (settingsName, c) ∈ fl := by
        obtain ⟨f, hf, h1, h2⟩ := hL2.only _ _ hcc
        have : f = (settingsName, c) := by
          rw [Prod.ext_iff]
          refine ⟨elems_inj ?_, h2.symm⟩
          rw [← h1]
          show [settingsName] = Path.elems settingsName
          decide +kernel
        rwa [← this]
      rw [hP] at hren
      unfold rename at hren
      split at hren
      · injection hren with hren
        have hne : id ≠ id ++ dotTmp := by
          intro he
          have := congrArg List.length he
          simp [dotTmp] at this
        have hmove : ∀ r, fs3 (Path.names shard ++ [id] ++ r) = fs2 (Path.names shard ++ [id ++ dotTmp] ++ r) := by
          intro r
          rw [← hren]
          dsimp only
          rw [if_pos (List.isPrefixOf_iff_prefix.2 (List.prefix_append _ _)), List.drop_left]
        refine ⟨⟨?_, ?_, ?_⟩, ?_, ?_, hn2, by simpa using hok, c, hin, hdec⟩
        · intro f hf
          rw [hmove]; exact hL2.files f hf
        · intro r c' hr
          rw [hmove] at hr; exact hL2.only r c' hr
        · intro r
          rw [hmove]; exact hL2.dirs r
        · intro r
          rw [← hren]
          dsimp only
          rw [if_neg, if_pos]
          · exact List.isPrefixOf_iff_prefix.2 ⟨r, by simp⟩
          · intro hp
            obtain ⟨t, ht⟩ := List.isPrefixOf_iff_prefix.1 hp
            rw [List.append_assoc] at ht
            have := List.append_cancel_left ht
            injection this with h3 _
            exact hne h3
        · intro q hq1 hq2
          rw [← hren]
          dsimp only
          rw [if_neg (fun hp => hq1 (List.isPrefixOf_iff_prefix.1 hp)),
            if_neg (fun hp => hq2 (List.isPrefixOf_iff_prefix.1 hp)), hout2 q hq2]
          by_cases hpre : q <+: Path.names shard ++ [id ++ dotTmp]
          · by_cases hqn : fs q = none
            · right
              refine ⟨hqn, hd1 q hpre, ?_⟩
              rcases prefix_snoc hpre with h3 | h3
              · exact absurd (by rw [h3]) hq2
              · exact h3
            · left; exact hkeep q hqn
          · left; exact hout q hpre
      · exact absurd hren (by simp)
    · exact absurd h (by simp)

/-- Unpacking succeeds if no file is in the way of another and nothing is in the way. -/
theorem runnerPersist_succeeds {S : Type} {io : List Bytes → Bool} (hio : ∀ p, io p = true) {decode : Bytes → Option S}
    {shard id : Bytes} (hs : shard ≠ []) (hi : Path.Name id) {fs : FS} (hfresh : Fresh fs shard id)
    (hdirs : ∀ q, q <+: Path.names shard → isFile fs q = false) {fl : List (Bytes × Bytes)} (ht : ∀ f ∈ fl, Tidy f.1)
    (hnd : (fl.map Prod.fst).Nodup) (hclash : NoClash fl) {c : Bytes} (hc : (settingsName, c) ∈ fl) {s : S}
    (hdec : decode c = some s) :
    ∃ fs', runnerPersist io decode (inputPath shard id) fs true (members fl) =
      some (fs', s, (fl.map fun f => f.2.length).sum) := by
  have hT := names_tmp hs hi
  have hP := names_path hs hi
  have htmp : tmpOf (inputPath shard id) ≠ [] := by
    unfold tmpOf; simp
  have hne : id ≠ id ++ dotTmp := by
    intro he
    have := congrArg List.length he
    simp [dotTmp] at this
  have hmk : ∃ fs1, mkdirAll fs (Path.names shard ++ [id ++ dotTmp]) = some fs1 := by
    unfold mkdirAll
    rw [if_neg]
    · exact ⟨_, rfl⟩
    · rw [List.any_eq_true]
      rintro ⟨q, hq, hfile⟩
      rcases prefix_snoc ((List.mem_inits _ _).1 hq) with rfl | h3
      · have := (hfresh []).2
        unfold isFile at hfile
        rw [this] at hfile
        cases hfile
      · rw [hdirs q h3] at hfile; cases hfile
  obtain ⟨fs1, hm⟩ := hmk
  obtain ⟨hd1, hkeep, hout⟩ := mkdirAll_some hm
  have hfree1 : ∀ m r, fs1 (Path.names shard ++ [id ++ dotTmp] ++ m :: r) = none := by
    intro m r
    rw [hout _ (fun hp => by have := hp.length_le; simp at this)]
    have := (hfresh (m :: r)).2
    simpa using this
  obtain ⟨⟨fs2, sz⟩, hu⟩ := unpack_succeeds hio htmp fl [] fs1 ht (by simpa using hclash) (by simpa using hnd)
    (by rw [hT]; exact laid_nil hd1 hfree1) (by rw [hT]; exact hd1)
  obtain ⟨hL2, hd2, hout2, hn2⟩ := unpack_files htmp fl [] fs1 fs2 sz ht (by simpa using hnd)
    (by rw [hT]; exact laid_nil hd1 hfree1) (by rw [hT]; exact hd1) hu
  rw [hT] at hL2 hd2 hout2
  have hset : Path.names (Path.join [tmpOf (inputPath shard id), settingsName]) =
      Path.names shard ++ [id ++ dotTmp] ++ [settingsName] := by
    rw [Path.names_join_name htmp name_settings, hT]
  have hfile : fs2 (Path.names shard ++ [id ++ dotTmp] ++ [settingsName]) = some (.file c) := by
    have := hL2.files (settingsName, c) (by simpa using hc)
    have he : Path.elems settingsName = [settingsName] := by decide +kernel
    rwa [he] at this
  have hren : ∃ fs3, rename fs2 (Path.names shard ++ [id ++ dotTmp]) (Path.names shard ++ [id]) = some fs3 := by
    unfold rename
    rw [if_pos]
    · exact ⟨_, rfl⟩
    · refine ⟨hd2 _ (List.prefix_refl _), ?_, ?_⟩
      · have hnp : ¬ Path.names shard ++ [id ++ dotTmp] <+: Path.names shard ++ [id] := by
          intro h
          rcases prefix_snoc h with h | h
          · have := List.append_cancel_left h
            injection this with h1 _
            exact hne h1.symm
          · have := h.length_le
            simp at this
        have hnp' : ¬ Path.names shard ++ [id] <+: Path.names shard ++ [id ++ dotTmp] := by
          intro h
          rcases prefix_snoc h with h | h
          · have := List.append_cancel_left h
            injection this with h1 _
            exact hne h1
          · have := h.length_le
            simp at this
        rw [hout2 _ hnp, hout _ hnp']
        exact (hfresh []).1
      · rw [List.dropLast_concat]
        exact hd2 _ (List.prefix_append _ _)
  obtain ⟨fs3, hren⟩ := hren
  refine ⟨fs3, ?_⟩
  unfold runnerPersist
  dsimp only
  rw [hT, hm, Option.bind_some, hu, Option.bind_some]
  dsimp only
  rw [if_neg (by simp), hset, hfile]
  dsimp only
  rw [hdec, Option.bind_some, hP, hren, ← hn2]
  rfl

/-! ## The names in the archive of a request -/

def casesDir : Bytes := ['c', 'a', 's', 'e', 's']
def interactiveDir : Bytes := ['i', 'n', 't', 'e', 'r', 'a', 'c', 't', 'i', 'v', 'e']
def dotIn : Bytes := ['.', 'i', 'n']
def dotOut : Bytes := ['.', 'o', 'u', 't']
def dotIdl : Bytes := ['.', 'i', 'd', 'l']

theorem name_last {x : Bytes} {y : Char} (hx : x.getLast? = some y) (hy : y ≠ '.') (hs : '/' ∉ x) : Path.Name x := by
  refine ⟨⟨?_, ?_, hs⟩, ?_⟩
  · rintro rfl; cases hx
  · rintro rfl; exact hy (by simpa [Path.dot] using hx.symm)
  · rintro rfl; exact hy (by simpa [Path.dotdot] using hx.symm)

theorem name_head {x : Bytes} {y : Char} (hx : x.head? = some y) (hy : y ≠ '.') (hs : '/' ∉ x) : Path.Name x := by
  refine ⟨⟨?_, ?_, hs⟩, ?_⟩
  · rintro rfl; cases hx
  · rintro rfl; exact hy (by simpa [Path.dot] using hx.symm)
  · rintro rfl; exact hy (by simpa [Path.dotdot] using hx.symm)

theorem elems_two {d x : Bytes} (hd : '/' ∉ d) (hx : '/' ∉ x) : Path.elems (d ++ '/' :: x) = [d, x] := by
  rw [Path.elems_append_slash, Path.elems_noslash hd, Path.elems_noslash hx]; rfl

/-- Case names and the validator's language have no slash. -/
def Plain (input : Literal.Input) : Prop :=
  (∀ e ∈ input.cases, '/' ∉ e.1) ∧
    ∀ v c, input.validator = some v → v.custom = some c → '/' ∉ c.language

/-- Where a file of the archive can be. -/
inductive Shape : List Bytes → Prop where
  | top (x : Bytes) (hx : Path.Name x) (hh : x.head? = some 's' ∨ x.head? = some 'v') : Shape [x]
  | case (x : Bytes) (hx : Path.Name x) : Shape [casesDir, x]
  | interactive (x : Bytes) (hx : Path.Name x) : Shape [interactiveDir, x]

theorem interactive_names {ι : Type} {R : Literal.Runtime} {T : Literal.Tools ι} {input : Literal.Input}
    {o : Literal.Output ι} (hm : Literal.IsMap input.cases) (h : Literal.newLiteralInput R T input = .ok o)
    {i : Literal.Interactive} (h1 : input.interactive = some i) :
    '/' ∉ i.moduleName ∧ '/' ∉ Literal.languageFileExtension i.parentLang := by
  obtain ⟨-, -, -, -, -, ⟨i', hi, -⟩, -⟩ := Literal.accepted hm h
  have hstep := hi [] (fun f hf => absurd hf List.not_mem_nil)
  rw [h1] at hstep
  simp only [Literal.interactiveStep] at hstep
  split_ifs at hstep with g1 g2
  refine ⟨Literal.validInterface_no_slash (by simpa using g2), ?_⟩
  have := g1
  simp only [Literal.validLanguages, List.mem_cons, List.not_mem_nil, or_false] at this
  rcases this with e | e | e | e | e | e | e | e | e | e | e | e | e | e | e | e <;> rw [e] <;> decide

theorem elems_case {n x : Bytes} (h : '/' ∉ n) (hx : '/' ∉ x) :
    Path.elems (Literal.sCases ++ n ++ x) = [casesDir, n ++ x] := by
  have e : Literal.sCases ++ n ++ x = casesDir ++ '/' :: (n ++ x) := by simp [Literal.sCases, casesDir]
  rw [e, elems_two (by decide) (by simp [h, hx])]

theorem elems_validator {l : Bytes} (h : '/' ∉ l) :
    Path.elems (Literal.sValidatorDot ++ l) = [Literal.sValidatorDot ++ l] := by
  refine Path.elems_noslash ?_
  rw [List.mem_append, not_or]
  exact ⟨by decide, h⟩

theorem elems_main {l : Bytes} (h : '/' ∉ l) :
    Path.elems (Literal.sInteractive ++ Literal.sMainDot ++ l) = [interactiveDir, Literal.sMainDot ++ l] := by
  have e : Literal.sInteractive ++ Literal.sMainDot ++ l = interactiveDir ++ '/' :: (Literal.sMainDot ++ l) := by
    simp [Literal.sInteractive, interactiveDir]
  rw [e, elems_two (by decide)]
  rw [List.mem_append, not_or]
  exact ⟨by decide, h⟩

theorem elems_idl {m : Bytes} (h : '/' ∉ m) :
    Path.elems (Literal.sInteractive ++ m ++ dotIdl) = [interactiveDir, m ++ dotIdl] := by
  have e : Literal.sInteractive ++ m ++ dotIdl = interactiveDir ++ '/' :: (m ++ dotIdl) := by
    simp [Literal.sInteractive, interactiveDir]
  rw [e, elems_two (by decide)]
  rw [List.mem_append, not_or]
  exact ⟨h, by decide⟩

theorem shape {ι : Type} {R : Literal.Runtime} {T : Literal.Tools ι} {input : Literal.Input}
    {o : Literal.Output ι} (hm : Literal.IsMap input.cases) (h : Literal.newLiteralInput R T input = .ok o)
    (hp : Plain input) : ∀ f ∈ o.archive, Shape (Path.elems f.1) := by
  rintro ⟨name, contents⟩ hf
  rcases ((Literal.C52_archive hm h).2 name contents).1 hf with
    ⟨rfl, -⟩ | ⟨n, c, h1, h2⟩ | ⟨v, c, h1, h2, h3, rfl, -⟩ | ⟨i, h1, h2⟩
  · have e : Path.elems Literal.sSettings = [Literal.sSettings] := by decide +kernel
    show Shape (Path.elems Literal.sSettings)
    rw [e]
    exact .top _ (by decide +kernel) (Or.inl rfl)
  · have hs : '/' ∉ n := hp.1 _ h1
    rcases h2 with ⟨rfl, -⟩ | ⟨rfl, -⟩
    · show Shape (Path.elems (Literal.sCases ++ n ++ ['.', 'i', 'n']))
      rw [elems_case hs (by decide)]
      refine .case _ (name_last (y := 'n') ?_ (by decide) (by simp [hs]))
      rw [List.getLast?_append_of_ne_nil _ (by simp)]; rfl
    · show Shape (Path.elems (Literal.sCases ++ n ++ ['.', 'o', 'u', 't']))
      rw [elems_case hs (by decide)]
      refine .case _ (name_last (y := 't') ?_ (by decide) (by simp [hs]))
      rw [List.getLast?_append_of_ne_nil _ (by simp)]; rfl
  · have hs := hp.2 v c h1 h3
    show Shape (Path.elems (Literal.sValidatorDot ++ c.language))
    rw [elems_validator hs]
    refine .top _ (name_head (y := 'v') rfl (by decide) ?_) (Or.inr rfl)
    rw [List.mem_append, not_or]
    exact ⟨by decide, hs⟩
  · obtain ⟨hmod, hext⟩ := interactive_names hm h h1
    rcases h2 with ⟨rfl, -⟩ | ⟨rfl, -⟩
    · show Shape (Path.elems (Literal.sInteractive ++ Literal.sMainDot ++ Literal.languageFileExtension i.parentLang))
      rw [elems_main hext]
      refine .interactive _ (name_head (y := 'M') rfl (by decide) ?_)
      rw [List.mem_append, not_or]
      exact ⟨by decide, hext⟩
    · show Shape (Path.elems (Literal.sInteractive ++ i.moduleName ++ dotIdl))
      rw [elems_idl hmod]
      refine .interactive _ (name_last (y := 'l') ?_ (by decide) ?_)
      · rw [List.getLast?_append_of_ne_nil _ (by simp [dotIdl])]; rfl
      · rw [List.mem_append, not_or]
        exact ⟨hmod, by decide⟩

theorem Shape.names {r : List Bytes} (h : Shape r) : ∀ e ∈ r, Path.Name e := by
  have h1 : Path.Name casesDir := by decide +kernel
  have h2 : Path.Name interactiveDir := by decide +kernel
  cases h with
  | top x hx hh => intro e he; rw [List.mem_singleton.1 he]; exact hx
  | case x hx =>
    intro e he
    simp only [List.mem_cons, List.not_mem_nil, or_false] at he
    rcases he with rfl | rfl <;> assumption
  | interactive x hx =>
    intro e he
    simp only [List.mem_cons, List.not_mem_nil, or_false] at he
    rcases he with rfl | rfl <;> assumption

theorem Shape.noclash {r q : List Bytes} (h : Shape r) (h' : Shape q) (hp : r <+: q) : r = q := by
  have key : r.length = q.length → r = q := fun hl => hp.eq_of_length hl
  have hl := hp.length_le
  cases h with
  | top x hx hh =>
    cases h' with
    | top y hy hh' => exact key rfl
    | case y hy =>
      obtain ⟨t, ht⟩ := hp
      injection ht with h1 _
      subst h1
      rcases hh with hh | hh <;> exact absurd hh (by decide)
    | interactive y hy =>
      obtain ⟨t, ht⟩ := hp
      injection ht with h1 _
      subst h1
      rcases hh with hh | hh <;> exact absurd hh (by decide)
  | case x hx =>
    cases h' with
    | top y hy hh' => simp at hl
    | case y hy => exact key rfl
    | interactive y hy => exact key rfl
  | interactive x hx =>
    cases h' with
    | top y hy hh' => simp at hl
    | case y hy => exact key rfl
    | interactive y hy => exact key rfl

theorem Shape.above {r q : List Bytes} (h : Shape q) (hp : r <+: q) (hne : r ≠ q) :
    r = [] ∨ r = [casesDir] ∨ r = [interactiveDir] := by
  have two : ∀ d x : Bytes, r <+: [d, x] → r ≠ [d, x] → r = [] ∨ r = [d] := by
    intro d x hp hne
    have h' : r <+: [d] ++ [x] := hp
    rcases prefix_snoc h' with h | h
    · exact absurd h hne
    · have h'' : r <+: [] ++ [d] := h
      rcases prefix_snoc h'' with h | h
      · exact Or.inr h
      · exact Or.inl (List.prefix_nil.1 h)
  cases h with
  | top x hx hh =>
    have h' : r <+: [] ++ [x] := hp
    rcases prefix_snoc h' with h | h
    · exact absurd h hne
    · exact Or.inl (List.prefix_nil.1 h)
  | case x hx => rcases two _ _ hp hne with h | h <;> simp [h]
  | interactive x hx => rcases two _ _ hp hne with h | h <;> simp [h]

theorem archive_nodup {ι : Type} {R : Literal.Runtime} {T : Literal.Tools ι} {input : Literal.Input}
    {o : Literal.Output ι} (hm : Literal.IsMap input.cases) (h : Literal.newLiteralInput R T input = .ok o) :
    (o.archive.map Prod.fst).Nodup :=
  (Literal.C52_archive hm h).1.imp fun hlt he => absurd hlt (by rw [he]; exact lt_irrefl _)

theorem archive_size {ι : Type} {R : Literal.Runtime} {T : Literal.Tools ι} {input : Literal.Input}
    {o : Literal.Output ι} (hm : Literal.IsMap input.cases) (h : Literal.newLiteralInput R T input = .ok o) :
    (o.archive.map fun f => f.2.length).sum = o.uncompressedSize := by
  have hnd' := archive_nodup hm h
  obtain ⟨-, -, -, -, -, -, -, -, -, -, bytes, -, hnd, ha, hsz, -⟩ := Literal.accepted hm h
  rw [hsz]
  have hperm : o.archive.Perm (Literal.baseFiles input (R.range 1 input.cases) ++ [(Literal.sSettings, bytes)]) := by
    rw [List.perm_ext_iff_of_nodup hnd'.of_map hnd.of_map]
    intro f
    rw [ha, Literal.createTar_mem R hnd]
  exact ((hperm.trans (R.range_perm 3 _).symm).map _).sum_eq

/-! ## C181 -/

/-- **C181** (as far as it holds). A request is accepted and a runner fetches the archive that was made of it, maybe
damaged on the way. If no case name and no validator's language has a slash and the runner reports no error, then in
the input's directory are the request's files and nothing else: the input and the output of each case under its name,
the validator and the files of the interactive part; the settings it judges with are those that the grader made, the
size is the announced one and nothing is changed elsewhere. -/
theorem C181_judged_partial {ι : Type} {R : Literal.Runtime} {T : Literal.Tools ι} {input : Literal.Input}
    {o : Literal.Output ι} (hm : Literal.IsMap input.cases) (h : Literal.newLiteralInput R T input = .ok o)
    (hp : Plain input) {C : Codec} (hC : C.Lawful) (hT : Packs C T) {io : List Bytes → Bool}
    {decode : Bytes → Option (Literal.Settings ι)}
    (hround : ∀ b, T.marshal o.settings = some b → decode b = some o.settings)
    {shard id : Bytes} (hs : shard ≠ []) (hi : Path.Name id) {fs fs' : FS} (hfresh : Fresh fs shard id)
    {body : Bytes} {len : Option Nat} (hcol : T.sha1 body = o.hash → body = T.gzipTar o.archive)
    {s : Literal.Settings ι} {n : Nat}
    (hf : fetch C T.sha1 io decode (inputPath shard id) fs o.hash len body = some (fs', s, n)) :
    s = o.settings ∧ n = o.uncompressedSize ∧
    (∀ name c, (name, some c) ∈ input.cases →
      fs' (Path.names shard ++ [id, casesDir, name ++ dotIn]) = some (.file c.input) ∧
      fs' (Path.names shard ++ [id, casesDir, name ++ dotOut]) = some (.file c.output)) ∧
    (∀ v c, input.validator = some v → v.name = Literal.sCustom → v.custom = some c →
      fs' (Path.names shard ++ [id, Literal.sValidatorDot ++ c.language]) = some (.file c.source)) ∧
    (∀ i, input.interactive = some i →
      fs' (Path.names shard ++ [id, interactiveDir, Literal.sMainDot ++ Literal.languageFileExtension i.parentLang]) =
        some (.file i.mainSource) ∧
      fs' (Path.names shard ++ [id, interactiveDir, i.moduleName ++ dotIdl]) = some (.file i.idl)) ∧
    (∀ r c, fs' (Path.names shard ++ id :: r) = some (.file c) →
      Literal.InArchive T input o.settings (Path.slashed r) c) ∧
    (∀ r, fs' (Path.names shard ++ id :: r) = some .dir → r = [] ∨ r = [casesDir] ∨ r = [interactiveDir]) ∧
    (∀ q, ¬ (Path.names shard ++ [id]) <+: q → ¬ (Path.names shard ++ [id ++ dotTmp]) <+: q →
      (fs' q = fs q ∨ (fs q = none ∧ fs' q = some .dir ∧ q <+: Path.names shard))) := by
  have hin := (Literal.C52_archive hm h).2
  have hsh := shape hm h hp
  have hhash : o.hash = T.sha1 (T.gzipTar o.archive) := by
    obtain ⟨-, -, -, -, -, -, -, -, -, -, bytes, -, -, -, -, e⟩ := Literal.accepted hm h
    exact e
  rw [hhash] at hf hcol
  obtain ⟨-, hrun⟩ := fetch_some hC (ms := members o.archive) (file := T.gzipTar o.archive)
    (by unfold StoredAs; rw [hT]) hcol hf
  obtain ⟨hL, -, hout, hn, -, c0, hc0, hdec⟩ := runnerPersist_files hs hi hfresh
    (fun f hf => (hsh f hf).names) (archive_nodup hm h) hrun
  have happ : ∀ r, Path.names shard ++ id :: r = Path.names shard ++ [id] ++ r := by intro r; simp
  have file : ∀ name c r, (name, c) ∈ o.archive → Path.elems name = r →
      fs' (Path.names shard ++ id :: r) = some (.file c) := by
    intro name c r hmem he
    rw [happ, ← he]
    exact hL.files _ hmem
  refine ⟨?_, ?_, ?_, ?_, ?_, ?_, ?_, hout⟩
  · rcases (hin _ _).1 hc0 with ⟨-, h2⟩ | ⟨x, c, -, h2⟩ | ⟨v, c, -, -, -, h2, -⟩ | ⟨i, -, h2⟩
    · rw [hround _ h2] at hdec
      exact (Option.some.inj hdec).symm
    · rcases h2 with ⟨h2, -⟩ | ⟨h2, -⟩ <;>
      · have := congrArg List.head? h2
        exact absurd this (by simp [settingsName, Literal.sCases])
    · have := congrArg List.head? h2
      exact absurd this (by simp [settingsName, Literal.sValidatorDot])
    · rcases h2 with ⟨h2, -⟩ | ⟨h2, -⟩ <;>
      · have := congrArg List.head? h2
        exact absurd this (by simp [settingsName, Literal.sInteractive])
  · rw [hn]; exact archive_size hm h
  · intro name c hc
    have hsl : '/' ∉ name := hp.1 _ hc
    exact ⟨file _ _ _ ((hin _ _).2 (Or.inr (Or.inl ⟨name, c, hc, Or.inl ⟨rfl, rfl⟩⟩))) (elems_case hsl (by decide)),
      file _ _ _ ((hin _ _).2 (Or.inr (Or.inl ⟨name, c, hc, Or.inr ⟨rfl, rfl⟩⟩))) (elems_case hsl (by decide))⟩
  · intro v c h1 h2 h3
    exact file _ _ _ ((hin _ _).2 (Or.inr (Or.inr (Or.inl ⟨v, c, h1, h2, h3, rfl, rfl⟩))))
      (elems_validator (hp.2 v c h1 h3))
  · intro i h1
    obtain ⟨hmod, hext⟩ := interactive_names hm h h1
    exact ⟨file _ _ _ ((hin _ _).2 (Or.inr (Or.inr (Or.inr ⟨i, h1, Or.inl ⟨rfl, rfl⟩⟩)))) (elems_main hext),
      file _ _ _ ((hin _ _).2 (Or.inr (Or.inr (Or.inr ⟨i, h1, Or.inr ⟨rfl, rfl⟩⟩)))) (elems_idl hmod)⟩
  · intro r c hr
    rw [happ] at hr
    obtain ⟨⟨name, c'⟩, hmem, h1, h2⟩ := hL.only r c hr
    rw [h1, h2, slashed_elems]
    exact (hin _ _).1 hmem
  · intro r hr
    rw [happ] at hr
    rcases (hL.dirs r).1 hr with h1 | ⟨f, hf, h1, h2⟩
    · exact Or.inl h1
    · exact (hsh f hf).above h1 h2

/-- **C181**, as the judge sees it: the settings it gets have exactly the cases of the request, and at the paths where it
opens a case's files (/repo/runner/runner.go:889-893 and 1157-1159) there are the input and the output that the request
gave for it. -/
theorem C181_cases_partial {ι : Type} {R : Literal.Runtime} {T : Literal.Tools ι} {input : Literal.Input}
    {o : Literal.Output ι} (hm : Literal.IsMap input.cases) (h : Literal.newLiteralInput R T input = .ok o)
    (hp : Plain input) {C : Codec} (hC : C.Lawful) (hT : Packs C T) {io : List Bytes → Bool}
    {decode : Bytes → Option (Literal.Settings ι)}
    (hround : ∀ b, T.marshal o.settings = some b → decode b = some o.settings)
    {shard id : Bytes} (hs : shard ≠ []) (hi : Path.Name id) {fs fs' : FS} (hfresh : Fresh fs shard id)
    {body : Bytes} {len : Option Nat} (hcol : T.sha1 body = o.hash → body = T.gzipTar o.archive)
    {s : Literal.Settings ι} {n : Nat}
    (hf : fetch C T.sha1 io decode (inputPath shard id) fs o.hash len body = some (fs', s, n)) :
    ((s.cases.flatMap Literal.Group.cases).map Literal.CaseSettings.name).Perm (input.cases.map Prod.fst) ∧
    ∀ g ∈ s.cases, ∀ c ∈ g.cases, ∃ d, (c.name, some d) ∈ input.cases ∧
      fs' (Path.names (Path.join [inputPath shard id, ['c', 'a', 's', 'e', 's'], c.name ++ ['.', 'i', 'n']])) =
        some (.file d.input) ∧
      fs' (Path.names (Path.join [inputPath shard id, ['c', 'a', 's', 'e', 's'], c.name ++ ['.', 'o', 'u', 't']])) =
        some (.file d.output) := by
  obtain ⟨h1, -, h2, -⟩ := C181_judged_partial hm h hp hC hT hround hs hi hfresh hcol hf
  have hok := Literal.C53_cases hm h
  have hperm : ((s.cases.flatMap Literal.Group.cases).map Literal.CaseSettings.name).Perm
      (input.cases.map Prod.fst) := by
    have := hok.every.map Prod.fst
    rw [List.map_map, List.map_map] at this
    rw [h1]
    exact this
  refine ⟨hperm, fun g hg c hc => ?_⟩
  have hmem : c.name ∈ input.cases.map Prod.fst :=
    hperm.mem_iff.1 (List.mem_map.2 ⟨c, List.mem_flatMap.2 ⟨g, hg, hc⟩, rfl⟩)
  obtain ⟨⟨nm, e2⟩, he, hne⟩ := List.mem_map.1 hmem
  dsimp only at hne
  subst hne
  obtain ⟨d, -, hd, -⟩ := (Literal.accepted hm h).2.1 _ he
  dsimp only at hd
  subst hd
  have hslash := hp.1 _ he
  dsimp only at hslash
  have key : ∀ suf : Bytes, '/' ∉ suf → 3 ≤ suf.length →
      Path.names (Path.join [inputPath shard id, ['c', 'a', 's', 'e', 's'], c.name ++ suf]) =
        Path.names shard ++ [id, casesDir, c.name ++ suf] := by
    intro suf h1 h2
    have hlen : 3 ≤ (c.name ++ suf).length := by rw [List.length_append]; omega
    have hN : Path.Name (c.name ++ suf) := by
      refine ⟨⟨fun e => ?_, fun e => ?_, fun e => ?_⟩, fun e => ?_⟩
      · rw [e] at hlen; simp at hlen
      · rw [e] at hlen; simp [Path.dot] at hlen
      · rcases List.mem_append.1 e with e | e
        · exact hslash e
        · exact h1 e
      · rw [e] at hlen; simp [Path.dotdot] at hlen
    have push : ∀ (r : Bool) (acc : List Bytes) (e : Bytes), Path.Name e → Path.push r acc e = e :: acc := by
      intro r acc e he
      unfold Path.push
      rw [if_neg (by rintro (h | h); exact he.1.1 h; exact he.1.2.1 h), if_neg he.2]
    rw [Path.names_join (inputPath_ne hs)]
    simp only [List.flatMap_cons, List.flatMap_nil, List.append_nil]
    rw [Path.elems_noslash (show '/' ∉ ['c', 'a', 's', 'e', 's'] by decide), Path.elems_noslash hN.1.2.2]
    simp only [List.cons_append, List.nil_append, List.foldl_cons, List.foldl_nil]
    rw [push _ _ ['c', 'a', 's', 'e', 's'] (by decide), push _ _ _ hN]
    unfold inputPath
    rw [Path.names_join_name hs hi]
    simp [casesDir]
  obtain ⟨h3, h4⟩ := h2 _ _ he
  refine ⟨d, he, ?_, ?_⟩
  · rw [key _ (by decide) (by decide)]; exact h3
  · rw [key _ (by decide) (by decide)]; exact h4

/-- **C181** (it arrives). Under the same condition on the names, an intact archive is unpacked without an error, if
the runner can write there. -/
theorem C181_arrives_partial {ι : Type} {R : Literal.Runtime} {T : Literal.Tools ι} {input : Literal.Input}
    {o : Literal.Output ι} (hm : Literal.IsMap input.cases) (h : Literal.newLiteralInput R T input = .ok o)
    (hp : Plain input) {C : Codec} (hC : C.Lawful) (hT : Packs C T) {io : List Bytes → Bool} (hio : ∀ p, io p = true)
    {decode : Bytes → Option (Literal.Settings ι)}
    (hround : ∀ b, T.marshal o.settings = some b → decode b = some o.settings)
    {shard id : Bytes} (hs : shard ≠ []) (hi : Path.Name id) {fs : FS} (hfresh : Fresh fs shard id)
    (hdirs : ∀ q, q <+: Path.names shard → isFile fs q = false) :
    ∃ fs', fetch C T.sha1 io decode (inputPath shard id) fs o.hash (some o.uncompressedSize) (T.gzipTar o.archive) =
      some (fs', o.settings, o.uncompressedSize) := by
  have hsh := shape hm h hp
  obtain ⟨-, -, -, -, -, -, -, -, -, -, bytes, hb, -, -, -, hhash⟩ := Literal.accepted hm h
  have hset : (settingsName, bytes) ∈ o.archive :=
    ((Literal.C52_archive hm h).2 _ _).2 (Or.inl ⟨rfl, hb⟩)
  have hclash : NoClash o.archive := fun f hf g hg hpre =>
    elems_inj ((hsh f hf).noclash (hsh g hg) hpre)
  obtain ⟨fs', hrun⟩ := runnerPersist_succeeds hio hs hi hfresh hdirs (fun f hf => (hsh f hf).names)
    (archive_nodup hm h) hclash hset (hround _ hb)
  refine ⟨fs', ?_⟩
  unfold fetch
  rw [hhash, hT, hC.whole]
  dsimp only
  rw [beq_self_eq_true, hrun, archive_size hm h]

/-! ## Concrete cases -/

/-- The tools of the examples, with a codec. -/
def sentTools (C : Codec) : Literal.Tools Unit :=
  { Literal.plainTools with gzipTar := fun files => C.enc (members files) }

theorem sentTools_packs (C : Codec) : Packs C (sentTools C) := fun _ => rfl

theorem retool {ι : Type} {R : Literal.Runtime} {T : Literal.Tools ι} {input : Literal.Input} {o : Literal.Output ι}
    (g : List (Literal.Str × Literal.Str) → Literal.Str) (h : Literal.newLiteralInput R T input = .ok o) :
    Literal.newLiteralInput R { T with gzipTar := g } input = .ok { o with hash := T.sha1 (g o.archive) } := by
  unfold Literal.newLiteralInput at h ⊢
  obtain ⟨⟨vs, files, v'⟩, h1, h⟩ := Literal.bind_ok h
  obtain ⟨⟨groups, files2⟩, h2, h⟩ := Literal.bind_ok h
  obtain ⟨⟨inter, files3, i'⟩, h3, h⟩ := Literal.bind_ok h
  have h3' : Literal.interactiveStep { T with gzipTar := g } input.interactive files2 = .ok (inter, files3, i') := h3
  rw [h1]
  dsimp only [Literal.Res.bind]
  rw [h2]
  dsimp only
  rw [h3']
  dsimp only at h ⊢
  split at h
  · cases h
  · rename_i bytes hb
    injection h with h
    subst h
    rfl

/-- A request with everything arrives: the theorems are about something. -/
example : ∃ C : Codec, C.Lawful ∧ Plain Literal.sampleInput ∧ ∃ o : Literal.Output Unit,
    Literal.newLiteralInput Literal.plainRuntime (sentTools C) Literal.sampleInput = .ok o ∧
    ∃ fs', fetch C (sentTools C).sha1 (fun _ => true) (fun _ => some o.settings) (inputPath exShard exId) exFS o.hash
      (some o.uncompressedSize) (C.enc (members o.archive)) = some (fs', o.settings, o.uncompressedSize) ∧
    fs' [['i'], ['h'], casesDir, ['a', '.', '2', '.', 'i', 'n']] = some (.file ['1']) ∧
    fs' [['i'], ['h'], ['v', 'a', 'l', 'i', 'd', 'a', 't', 'o', 'r', '.', 'p', 'y']] = some (.file ['x']) := by
  obtain ⟨C, hC⟩ := exists_lawful
  have hm : Literal.IsMap Literal.sampleInput.cases := by decide +kernel
  have hplain : Plain Literal.sampleInput := by
    refine ⟨by decide +kernel, ?_⟩
    rintro v c hv hc
    simp only [Literal.sampleInput, Option.some.injEq] at hv
    subst hv
    simp only [Option.some.injEq] at hc
    subst hc
    decide +kernel
  have hev : (match Literal.newLiteralInput Literal.plainRuntime Literal.plainTools Literal.sampleInput with
    | .ok _ => true | _ => false) = true := by decide +kernel
  obtain ⟨o, ho⟩ : ∃ o, Literal.newLiteralInput Literal.plainRuntime Literal.plainTools Literal.sampleInput = .ok o := by
    split at hev
    · exact ⟨_, by assumption⟩
    · cases hev
  have ho' := retool (fun files => C.enc (members files)) ho
  obtain ⟨fs', hf⟩ := C181_arrives_partial hm ho' hplain hC (sentTools_packs C) (io := fun _ => true) (fun _ => rfl)
    (decode := fun _ => some o.settings) (fun _ _ => rfl) (shard := exShard) (id := exId) (by decide) (by decide +kernel)
    exFresh exDirs
  obtain ⟨-, -, h1, h2, -⟩ := C181_judged_partial hm ho' hplain hC (sentTools_packs C) (io := fun _ => true)
    (decode := fun _ => some o.settings) (fun _ _ => rfl) (shard := exShard) (id := exId) (by decide) (by decide +kernel)
    exFresh (body := C.enc (members o.archive)) (fun _ => rfl) hf
  have hn : Path.names exShard = [['i']] := by decide +kernel
  rw [hn] at h1 h2
  refine ⟨C, hC, hplain, _, ho', fs', hf, (h1 ['a', '.', '2'] ⟨['1'], ['2'], some 2⟩ ?_).1, h2 _ _ rfl rfl rfl⟩
  simp [Literal.sampleInput, Literal.sampleCase]

/-- Two cases whose names differ in the number of slashes. -/
def dupInput : Literal.Input where
  cases := [(['a', '/', 'b'], some ⟨['1'], ['2'], some 1⟩), (['a', '/', '/', 'b'], some ⟨['3'], ['4'], some 1⟩)]
  limits := none
  validator := none
  interactive := none

/-- **C181 is false of names with slashes**: for every codec, a request with the cases `a/b` and `a//b` is accepted, and
a runner unpacks its archive without an error; both cases have the same files there, so the second is judged with the
input and the output of the first. -/
theorem C181_false {C : Codec} (hC : C.Lawful) : ∃ (o : Literal.Output Unit) (fs' : FS) (n : Nat),
    Literal.newLiteralInput Literal.plainRuntime (sentTools C) dupInput = .ok o ∧ Literal.IsMap dupInput.cases ∧
    Fresh exFS exShard exId ∧
    fetch C (sentTools C).sha1 (fun _ => true) exDecode (inputPath exShard exId) exFS o.hash
      (some o.uncompressedSize) (C.enc (members o.archive)) = some (fs', (), n) ∧
    (['a', '/', '/', 'b'], some ⟨['3'], ['4'], some 1⟩) ∈ dupInput.cases ∧
    fs' (Path.names (Path.join [inputPath exShard exId, casesDir, ['a', '/', '/', 'b', '.', 'i', 'n']])) =
      some (.file ['1']) ∧
    fs' (Path.names (Path.join [inputPath exShard exId, casesDir, ['a', '/', '/', 'b', '.', 'o', 'u', 't']])) =
      some (.file ['2']) := by
  have hev : (match Literal.newLiteralInput Literal.plainRuntime Literal.plainTools dupInput with
    | .ok o => decide (o.archive = [(casesDir ++ ['/', 'a', '/', '/', 'b', '.', 'i', 'n'], ['3']),
      (casesDir ++ ['/', 'a', '/', '/', 'b', '.', 'o', 'u', 't'], ['4']),
      (casesDir ++ ['/', 'a', '/', 'b', '.', 'i', 'n'], ['1']), (casesDir ++ ['/', 'a', '/', 'b', '.', 'o', 'u', 't'], ['2']),
      (settingsName, ['{', '}'])])
    | _ => false) = true := by decide +kernel
  obtain ⟨o, ho⟩ : ∃ o, Literal.newLiteralInput Literal.plainRuntime Literal.plainTools dupInput = .ok o := by
    split at hev
    · exact ⟨_, by assumption⟩
    · cases hev
  rw [ho] at hev
  have ha := of_decide_eq_true hev
  have ho' := retool (fun files => C.enc (members files)) ho
  have hrun : ((runnerPersist (fun _ => true) exDecode (inputPath exShard exId) exFS true (members o.archive)).map fun x =>
      (x.1 (Path.names (Path.join [inputPath exShard exId, casesDir, ['a', '/', '/', 'b', '.', 'i', 'n']])),
       x.1 (Path.names (Path.join [inputPath exShard exId, casesDir, ['a', '/', '/', 'b', '.', 'o', 'u', 't']])))) =
      some (some (.file ['1']), some (.file ['2'])) := by
    rw [ha]; decide +kernel
  obtain ⟨⟨fs', u, n⟩, hr, hx⟩ := Option.map_eq_some_iff.1 hrun
  injection hx with h1 h2
  refine ⟨_, fs', n, ho', by decide +kernel, exFresh, ?_, by simp [dupInput], h1, h2⟩
  unfold fetch
  rw [hC.whole]
  dsimp only
  rw [show (Literal.plainTools.sha1 (C.enc (members o.archive)) == (sentTools C).sha1 (C.enc (members o.archive))) = true
    from beq_self_eq_true _]
  exact hr

end Quark.Sent
