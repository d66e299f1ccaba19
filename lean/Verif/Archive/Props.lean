import Verif.Archive.Unpack

/-!
# The runner's directory is the repository's tree: C106 to C109

`contents`, `Valid`, `Intact`, `Blobs`, `total` and `cut` of `Verif.Archive.Walk` are the specification: what a tree of
a repository holds at a path, and what is left of it without everything that comes after the first subtree that cannot
be read.
-/

namespace Quark.Archive

/-- The directory of an input on the runner (/repo/runner/input.go:69-73): `shard` is the directory of the first two
digits of the hash and `id` the rest. -/
def inputPath (shard id : Bytes) : Bytes := Path.join [shard, id]

/-- `.tmp`. -/
def dotTmp : Bytes := ['.', 't', 'm', 'p']

/-- Nothing is left of an earlier attempt, as `Delete` has just been called (C36). -/
def Fresh (fs : FS) (shard id : Bytes) : Prop :=
  ∀ r, fs (Path.names shard ++ id :: r) = none ∧ fs (Path.names shard ++ (id ++ dotTmp) :: r) = none

theorem name_tmp {id : Bytes} (h : Path.Name id) : Path.Name (id ++ dotTmp) := by
  obtain ⟨⟨h1, h2, h3⟩, h4⟩ := h
  have hl : (id ++ dotTmp).length = id.length + 4 := by simp [dotTmp]
  refine ⟨⟨by simp [h1], ?_, ?_⟩, ?_⟩
  · intro h; rw [h] at hl; simp [Path.dot] at hl
  · intro h
    rcases List.mem_append.1 h with h | h
    · exact h3 h
    · revert h; decide
  · intro h; rw [h] at hl; simp [Path.dotdot] at hl

theorem inputPath_ne {shard id : Bytes} (hs : shard ≠ []) : inputPath shard id ≠ [] := by
  unfold inputPath
  rw [Path.join_cons hs]
  exact Path.clean_ne_nil _

theorem names_path {shard id : Bytes} (hs : shard ≠ []) (hi : Path.Name id) :
    Path.names (inputPath shard id) = Path.names shard ++ [id] := Path.names_join_name hs hi

theorem names_tmp {shard id : Bytes} (hs : shard ≠ []) (hi : Path.Name id) :
    Path.names (tmpOf (inputPath shard id)) = Path.names shard ++ [id ++ dotTmp] := by
  unfold tmpOf inputPath
  have h := Path.join_append (x := dotTmp) hs hi (name_tmp hi)
  have h2 := Path.names_join_name hs (name_tmp hi)
  rw [← h] at h2
  exact h2

theorem mkdirAll_some {fs fs' : FS} {p : List Bytes} (h : mkdirAll fs p = some fs') :
    Dirs fs' p ∧ (∀ q, fs q ≠ none → fs' q = fs q) ∧ (∀ q, ¬ q <+: p → fs' q = fs q) := by
  unfold mkdirAll at h
  split at h
  · exact absurd h (by simp)
  · rename_i hno
    injection h with h
    subst h
    refine ⟨?_, ?_, ?_⟩
    · intro q hq
      have hq' := (List.mem_inits q p).2 hq
      cases hfs : fs q with
      | none => simp [hq', hfs]
      | some e =>
        have hne : ¬ (q ∈ p.inits ∧ fs q = none) := by rw [hfs]; simp
        dsimp only
        rw [if_neg hne, hfs]
        cases e with
        | dir => rfl
        | file c =>
          exfalso
          apply hno
          rw [List.any_eq_true]
          exact ⟨q, hq', by simp [isFile, hfs]⟩
    · intro q hq
      dsimp only
      rw [if_neg (fun hc => hq hc.2)]
    · intro q hq
      dsimp only
      rw [if_neg (fun hc => hq ((List.mem_inits q p).1 hc.1))]

theorem graft_free {fs : FS} {base : List Bytes} {ns : List Node} (hd : Dirs fs base)
    (hf : ∀ m r, fs (base ++ m :: r) = none) (r : List Bytes) : graft fs base ns (base ++ r) = contents ns r := by
  cases r with
  | nil =>
    rw [List.append_nil, graft_else (fun x _ r => prefix_ne (List.prefix_refl _)), hd base (List.prefix_refl _)]
    unfold contents; rfl
  | cons m r =>
    by_cases h : ∃ x ∈ ns, x.name = m
    · exact graft_at h
    · rw [graft_else, contents_none (fun x hx he => h ⟨x, hx, he⟩)]
      · exact hf m r
      · intro x hx s he
        have := List.append_cancel_left he
        injection this with h1 _
        exact h ⟨x, hx, h1.symm⟩

theorem createArchive_some {io : Bytes → Bool} {root : List Node} (hv : Valid root) {ms : List Member} {size : Nat}
    (h : createArchive io root = some (ms, size)) :
    ms = emit [] (cut root).1 ∧ size = total (cut root).1 ∧ ∃ x ∈ (cut root).1, x.name = settingsName := by
  unfold createArchive at h
  dsimp only at h
  split at h
  · exact absurd h (by simp)
  · rename_i hs
    have hd := walk_did io [] (by simp) {} rfl root hv hs
    have ht : text [] = [] := rfl
    rw [ht] at hd
    split at h
    · exact absurd h (by simp)
    · rename_i hf
      injection h with h
      injection h with h1 h2
      refine ⟨?_, ?_, ?_⟩
      · rw [← h1, hd.out]; rfl
      · rw [← h2, hd.size]; simp
      · have := hd.found
        rw [this] at hf
        simpa using hf

/-- What `runnerPersist` comes to for the archive of a tree. -/
theorem runnerPersist_emit {S : Type} {io : List Bytes → Bool} {decode : Bytes → Option S} {shard id : Bytes}
    (hs : shard ≠ []) (hi : Path.Name id) {fs fs' : FS} (hfresh : Fresh fs shard id) {ok : Bool} {ns : List Node}
    (hv : Valid ns) {s : S} {n : Nat}
    (h : runnerPersist io decode (inputPath shard id) fs ok (emit [] ns) = some (fs', s, n)) :
    (∀ r, fs' (Path.names shard ++ id :: r) = contents ns r) ∧
    (∀ r, fs' (Path.names shard ++ (id ++ dotTmp) :: r) = none) ∧
    (∀ q, ¬ (Path.names shard ++ [id]) <+: q → ¬ (Path.names shard ++ [id ++ dotTmp]) <+: q →
      (fs' q = fs q ∨ (fs q = none ∧ fs' q = some .dir ∧ q <+: Path.names shard))) ∧
    n = total ns ∧ ok = true ∧ ∃ c, contents ns [settingsName] = some (.file c) ∧ decode c = some s := by
  unfold runnerPersist at h
  dsimp only at h
  have hT := names_tmp hs hi
  have hP := names_path hs hi
  have htmp : tmpOf (inputPath shard id) ≠ [] := by
    unfold tmpOf; simp
  rw [hT] at h
  obtain ⟨fs1, hm, h⟩ := Option.bind_eq_some_iff.1 h
  obtain ⟨⟨fs2, sz⟩, hu, h⟩ := Option.bind_eq_some_iff.1 h
  obtain ⟨hd1, hkeep, hout⟩ := mkdirAll_some hm
  have hfree1 : ∀ m r, fs1 (Path.names shard ++ [id ++ dotTmp] ++ m :: r) = none := by
    intro m r
    rw [hout _ (fun hp => by have := hp.length_le; simp at this)]
    have := (hfresh (m :: r)).2
    simpa using this
  have hun := unpack_list io htmp [] (by simp) ns fs1 [] hv (by rw [hT]; simpa using hd1)
    (by rw [hT]; intro x _ r; simpa using hfree1 x.name r)
    (by
      have := unpack_io hu
      intro m hm
      exact this m hm)
  rw [List.append_nil, List.append_nil, hT, hu] at hun
  have hun' : (fs2, sz) = (graft fs1 (Path.names shard ++ [id ++ dotTmp]) ns, total ns) := by
    simpa [unpack] using hun
  injection hun' with h1 h2
  dsimp only at h
  split at h
  · exact absurd h (by simp)
  · rename_i hok
    have hset : Path.names (Path.join [tmpOf (inputPath shard id), settingsName]) =
        Path.names shard ++ [id ++ dotTmp] ++ [settingsName] := by
      rw [Path.names_join_name htmp name_settings, hT]
    rw [hset] at h
    have hc : fs2 (Path.names shard ++ [id ++ dotTmp] ++ [settingsName]) = contents ns [settingsName] := by
      rw [h1]; exact graft_free hd1 hfree1 _
    rw [hc] at h
    split at h
    · rename_i c hcc
      obtain ⟨s', hdec, h⟩ := Option.bind_eq_some_iff.1 h
      obtain ⟨fs3, hren, h⟩ := Option.map_eq_some_iff.1 h
      injection h with e1 h
      injection h with e2 e3
      subst e1 e2 e3
      rw [hP] at hren
      unfold rename at hren
      split at hren
      · injection hren with hren
        have hne : id ≠ id ++ dotTmp := by
          intro he
          have := congrArg List.length he
          simp [dotTmp] at this
        refine ⟨?_, ?_, ?_, h2, by simpa using hok, c, hcc, hdec⟩
        · intro r
          rw [← hren]
          dsimp only
          have hp : (Path.names shard ++ [id]).isPrefixOf (Path.names shard ++ id :: r) = true :=
            List.isPrefixOf_iff_prefix.2 ⟨r, by simp⟩
          rw [if_pos hp]
          have hdrop : (Path.names shard ++ id :: r).drop (Path.names shard ++ [id]).length = r := by
            have : Path.names shard ++ id :: r = (Path.names shard ++ [id]) ++ r := by simp
            rw [this, List.drop_left]
          rw [hdrop, h1]
          exact graft_free hd1 hfree1 r
        · intro r
          rw [← hren]
          dsimp only
          rw [if_neg, if_pos]
          · exact List.isPrefixOf_iff_prefix.2 ⟨r, by simp⟩
          · intro hp
            obtain ⟨t, ht⟩ := List.isPrefixOf_iff_prefix.1 hp
            rw [List.append_assoc] at ht
            have := List.append_cancel_left ht
            injection this with h3 _
            exact hne h3
        · intro q hq1 hq2
          rw [← hren]
          dsimp only
          rw [if_neg (fun hp => hq1 (List.isPrefixOf_iff_prefix.1 hp)),
            if_neg (fun hp => hq2 (List.isPrefixOf_iff_prefix.1 hp)), h1, graft_else]
          · by_cases hpre : q <+: Path.names shard ++ [id ++ dotTmp]
            · by_cases hqn : fs q = none
              · right
                refine ⟨hqn, hd1 q hpre, ?_⟩
                rcases prefix_snoc hpre with h3 | h3
                · exact absurd (by rw [h3]) hq2
                · exact h3
              · left; exact hkeep q hqn
            · left; exact hout q hpre
          · intro x _ r he
            exact hq2 ⟨x.name :: r, by rw [he]⟩
      · exact absurd hren (by simp)
    · exact absurd h (by simp)

/-! ### C106: from the repository to the runner -/

/-- The laws of tar and gzip that are relied on: a complete archive holds what was written to it, and one that lacks
its end is either noticed or lacks nothing (the checksum at the end). -/
structure Codec.Lawful (C : Codec) : Prop where
  whole : ∀ ms, C.dec (C.enc ms) = some ms
  truncated : ∀ ms file, file <+: C.enc ms → C.dec file = none ∨ C.dec file = some ms

theorem fetch_some {S : Type} {C : Codec} (hC : C.Lawful) {H : Bytes → Bytes} {io : List Bytes → Bool}
    {decode : Bytes → Option S} {path : Bytes} {fs : FS} {ms : List Member} {file body : Bytes}
    {len : Option Nat} {x : FS × S × Nat} (hst : StoredAs C ms file) (hcol : H body = H file → body = file)
    (h : fetch C H io decode path fs (H file) len body = some x) :
    body = file ∧ runnerPersist io decode path fs true ms = some x := by
  unfold fetch at h
  cases len with
  | none => exact absurd h (by simp)
  | some l =>
    simp only at h
    cases hdec : C.dec body with
    | none => rw [hdec] at h; exact absurd h (by simp)
    | some ms' =>
      rw [hdec] at h
      simp only at h
      have hok : (H file == H body) = true := by
        by_contra hno
        have hno' : (H file == H body) = false := by simpa using hno
        rw [hno'] at h
        unfold runnerPersist at h
        simp at h
      have hb : body = file := hcol (by simpa using (beq_iff_eq.1 hok).symm)
      refine ⟨hb, ?_⟩
      rw [hok] at h
      subst hb
      rcases hC.truncated ms body hst with h' | h'
      · rw [h'] at hdec; exact absurd hdec (by simp)
      · rw [h'] at hdec
        injection hdec with hdec
        rw [hdec]
        exact h

/-- **C106** (exactly what arrives). A problem's tree is put into an archive by the grader, which is stored (maybe
without its end), sent (maybe damaged) and unpacked by a runner; if none of them reports an error, what the runner has
in the input's directory is at every path what the tree holds there, of the part of the tree that comes before the
first subtree that cannot be read. -/
theorem C106_exact {S : Type} {C : Codec} (hC : C.Lawful) {H : Bytes → Bytes} {gio : Bytes → Bool}
    {rio : List Bytes → Bool} {decode : Bytes → Option S} {shard id : Bytes} (hs : shard ≠ []) (hi : Path.Name id)
    {root : List Node} (hv : Valid root) {ms : List Member} {size : Nat}
    (hg : createArchive gio root = some (ms, size)) {file body : Bytes} (hst : StoredAs C ms file)
    (hcol : H body = H file → body = file) {fs fs' : FS} (hfresh : Fresh fs shard id) {s : S} {n : Nat}
    (hr : fetch C H rio decode (inputPath shard id) fs (H file) (some size) body = some (fs', s, n)) (r : List Bytes) :
    fs' (Path.names (inputPath shard id) ++ r) = contents (cut root).1 r := by
  obtain ⟨rfl, _, _⟩ := createArchive_some hv hg
  have h := (fetch_some hC hst hcol hr).2
  rw [names_path hs hi, List.append_assoc]
  exact (runnerPersist_emit hs hi hfresh (cut_valid root hv) h).1 r

/-- **C106** (partial: when no subtree is unreadable; see `C106_loses_files` for what else happens). The runner's
directory is the tree: the same files with the same contents, the same directories, nothing else. -/
theorem C106_same_partial {S : Type} {C : Codec} (hC : C.Lawful) {H : Bytes → Bytes} {gio : Bytes → Bool}
    {rio : List Bytes → Bool} {decode : Bytes → Option S} {shard id : Bytes} (hs : shard ≠ []) (hi : Path.Name id)
    {root : List Node} (hv : Valid root) (hint : Intact root) {ms : List Member} {size : Nat}
    (hg : createArchive gio root = some (ms, size)) {file body : Bytes} (hst : StoredAs C ms file)
    (hcol : H body = H file → body = file) {fs fs' : FS} (hfresh : Fresh fs shard id) {s : S} {n : Nat}
    (hr : fetch C H rio decode (inputPath shard id) fs (H file) (some size) body = some (fs', s, n)) (r : List Bytes) :
    fs' (Path.names (inputPath shard id) ++ r) = contents root r := by
  have h := C106_exact hC hs hi hv hg hst hcol hfresh hr r
  rw [cut_intact root hint] at h
  exact h

mutual
theorem blobs_found {io : Bytes → Bool} (hio : ∀ p, io p = true) (par : Bytes) : ∀ (n : Node) (w : Walked),
    w.stop = none → n.Blobs → (visit io par w n).stop ≠ some .error
  | .tree n r cs, w, hw, hb => by
    unfold visit
    simp only [hio, Bool.not_true, Bool.false_eq_true, if_false]
    cases r with
    | true => exact blobs_walk hio _ cs _ hw hb
    | false => simp
  | .blob n r c, w, hw, hb => by
    have hr : r = true := hb
    unfold visit
    simp [hio, hr, hw]
  | .other n, w, hw, _ => by
    unfold visit
    simp [hw]
theorem blobs_walk {io : Bytes → Bool} (hio : ∀ p, io p = true) (par : Bytes) : ∀ (ns : List Node) (w : Walked),
    w.stop = none → Blobs ns → (walk io par w ns).stop ≠ some .error
  | [], w, hw, _ => by unfold walk; simp [hw]
  | n :: ns, w, hw, hb => by
    have h1 := blobs_found hio par n w hw hb.1
    unfold walk
    dsimp only
    by_cases hs : (visit io par w n).stop.isSome = true
    · rw [if_pos hs]; exact h1
    · rw [if_neg hs]
      exact blobs_walk hio par ns _ (by simpa using hs) hb.2
end

/-- **C106** (exactly when the grader accepts). When all blobs can be read and the disk works, an archive is made if
and only if the root has an entry `settings.json` that comes before everything that is dropped. -/
theorem C106_accepts_iff {io : Bytes → Bool} (hio : ∀ p, io p = true) {root : List Node} (hv : Valid root)
    (hb : Blobs root) : (createArchive io root).isSome = true ↔ ∃ x ∈ (cut root).1, x.name = settingsName := by
  have hs := blobs_walk hio [] root {} rfl hb
  have hd := walk_did io [] (by simp) {} rfl root hv hs
  have ht : text [] = [] := rfl
  rw [ht] at hd
  unfold createArchive
  dsimp only
  rw [if_neg hs, hd.found]
  by_cases h : (cut root).1.any (fun n => n.name == settingsName) = true
  · rw [if_neg (by simpa using h)]
    simpa using h
  · rw [if_pos (by simpa using h)]
    simpa using h

/-- **C106** (nothing else is in the way). For a tree with a `settings.json` that decodes and comes before everything
that is dropped, when the blobs can be read, the disks work and the archive arrives whole, grader and runner both
succeed. -/
theorem C106_succeeds {S : Type} {C : Codec} (hC : C.Lawful) {H : Bytes → Bytes} {gio : Bytes → Bool}
    (hgio : ∀ p, gio p = true) {rio : List Bytes → Bool} (hrio : ∀ p, rio p = true) {decode : Bytes → Option S}
    {shard id : Bytes} (hs : shard ≠ []) (hi : Path.Name id) {root : List Node} (hv : Valid root)
    (hb : Blobs root) {c : Bytes} {s : S} (hset : contents (cut root).1 [settingsName] = some (.file c))
    (hdec : decode c = some s) {fs : FS} (hfresh : Fresh fs shard id)
    (hdirs : ∀ q, q <+: Path.names shard → isFile fs q = false) :
    ∃ ms, createArchive gio root = some (ms, total (cut root).1) ∧
      ∃ fs', fetch C H rio decode (inputPath shard id) fs (H (C.enc ms)) (some (total (cut root).1)) (C.enc ms) =
        some (fs', s, total (cut root).1) := by
  have hvc := cut_valid root hv
  have hex : ∃ x ∈ (cut root).1, x.name = settingsName := by
    by_contra hno
    rw [contents_none (fun x hx he => hno ⟨x, hx, he⟩)] at hset
    exact absurd hset (by simp)
  have hsome := (C106_accepts_iff hgio hv hb).2 hex
  obtain ⟨⟨ms, size⟩, hms⟩ := Option.isSome_iff_exists.1 hsome
  obtain ⟨h1, h2, _⟩ := createArchive_some hv hms
  subst h1 h2
  refine ⟨_, hms, ?_⟩
  unfold fetch
  simp only [hC.whole, beq_self_eq_true]
  unfold runnerPersist
  have hT := names_tmp hs hi
  have hP := names_path hs hi
  have htmp : tmpOf (inputPath shard id) ≠ [] := by unfold tmpOf; simp
  dsimp only
  have hTnone : fs (Path.names shard ++ [id ++ dotTmp]) = none := (hfresh []).2
  obtain ⟨fs1, hm⟩ : ∃ fs1, mkdirAll fs (Path.names shard ++ [id ++ dotTmp]) = some fs1 := by
    unfold mkdirAll
    rw [if_neg]
    · exact ⟨_, rfl⟩
    · rw [List.any_eq_true]
      rintro ⟨q, hq, hf⟩
      rcases prefix_snoc ((List.mem_inits _ _).1 hq) with h3 | h3
      · unfold isFile at hf; rw [h3, hTnone] at hf; simp at hf
      · rw [hdirs q h3] at hf; simp at hf
  rw [hT, hm, Option.bind_some]
  obtain ⟨hd1, hkeep, hout⟩ := mkdirAll_some hm
  have hfree1 : ∀ m r, fs1 (Path.names shard ++ [id ++ dotTmp] ++ m :: r) = none := by
    intro m r
    rw [hout _ (fun hp => by have := hp.length_le; simp at this)]
    have := (hfresh (m :: r)).2
    simpa using this
  have hun := unpack_list rio htmp [] (by simp) (cut root).1 fs1 [] hvc (by rw [hT]; simpa using hd1)
    (by rw [hT]; intro x _ r; simpa using hfree1 x.name r) (fun m _ => hrio _)
  rw [List.append_nil, List.append_nil, hT] at hun
  rw [hun]
  simp only [unpack, Option.map_some, Option.bind_some, Bool.not_true, Bool.false_eq_true, if_false]
  rw [Path.names_join_name htmp name_settings, hT, graft_free hd1 hfree1, hset]
  simp only [hdec, Option.bind_some]
  rw [hP]
  unfold rename
  rw [if_pos]
  · exact ⟨_, by rw [Option.map_some, Nat.zero_add]⟩
  · have hne : id ≠ id ++ dotTmp := by
      intro he
      have := congrArg List.length he
      simp [dotTmp] at this
    refine ⟨?_, ?_, ?_⟩
    · have := graft_free (ns := (cut root).1) hd1 hfree1 []
      rw [List.append_nil] at this
      rw [this]; rfl
    · rw [graft_else, hout]
      · exact (hfresh []).1
      · intro hp
        rcases prefix_snoc hp with h3 | h3
        · have := List.append_cancel_left h3
          injection this with h4 _
          exact hne h4
        · have := h3.length_le
          simp only [List.length_append, List.length_cons, List.length_nil] at this
          omega
      · intro x _ r he
        rw [List.append_assoc] at he
        have := List.append_cancel_left he
        injection this with h4 _
        exact hne h4
    · rw [List.dropLast_concat, graft_else]
      · exact hd1 _ (List.prefix_append _ _)
      · intro x _ r
        exact prefix_ne (List.prefix_append _ _)

/-! ### C107: sizes -/

/-- **C107.** The size that the grader announces is the size that the runner accounts for, whatever was dropped on the
way; for an intact tree it is the number of bytes in its blobs. -/
theorem C107_sizes {S : Type} {C : Codec} (hC : C.Lawful) {H : Bytes → Bytes} {gio : Bytes → Bool}
    {rio : List Bytes → Bool} {decode : Bytes → Option S} {shard id : Bytes} (hs : shard ≠ []) (hi : Path.Name id)
    {root : List Node} (hv : Valid root) {ms : List Member} {size : Nat}
    (hg : createArchive gio root = some (ms, size)) {file body : Bytes} (hst : StoredAs C ms file)
    (hcol : H body = H file → body = file) {fs fs' : FS} (hfresh : Fresh fs shard id) {s : S} {n : Nat}
    (hr : fetch C H rio decode (inputPath shard id) fs (H file) (some size) body = some (fs', s, n)) :
    n = size ∧ (Intact root → size = total root) := by
  obtain ⟨rfl, h2, _⟩ := createArchive_some hv hg
  have h := (fetch_some hC hst hcol hr).2
  have h3 := (runnerPersist_emit hs hi hfresh (cut_valid root hv) h).2.2.2.1
  refine ⟨by rw [h3, h2], ?_⟩
  intro hint
  rw [h2, cut_intact root hint]

/-- The paths of the files of a tree, in the order of the walk. -/
def paths : List Member → List Bytes
  | [] => []
  | .dir _ :: ms => paths ms
  | .file n _ :: ms => n :: paths ms

theorem paths_append (a b : List Member) : paths (a ++ b) = paths a ++ paths b := by
  induction a with
  | nil => rfl
  | cons m a ih => cases m <;> simp [paths, ih]

/-- Below `pre`, under a name. -/
def Below (pre : List Bytes) (n p : Bytes) : Prop :=
  ∃ r, p = Path.slashed (pre ++ n :: r) ∧ ∀ e ∈ pre ++ n :: r, Path.Name e

theorem Below.inj {pre : List Bytes} {n n' p : Bytes} (h : Below pre n p) (h' : Below pre n' p) : n = n' := by
  obtain ⟨r, h1, h2⟩ := h
  obtain ⟨r', h1', h2'⟩ := h'
  have := slashed_inj (by simp) (by simp) (fun e he => (h2 e he).1.2.2) (fun e he => (h2' e he).1.2.2)
    (h1.symm.trans h1')
  have := List.append_cancel_left this
  injection this

theorem Below.up {pre : List Bytes} {n m p : Bytes} (h : Below (pre ++ [n]) m p) : Below pre n p := by
  obtain ⟨r, h1, h2⟩ := h
  exact ⟨m :: r, by simpa using h1, by simpa using h2⟩

mutual
theorem below_node (pre : List Bytes) (hp : ∀ e ∈ pre, Path.Name e) : ∀ n : Node, n.Valid →
    ∀ p ∈ paths (n.emit pre), Below pre n.name p
  | .tree n r cs, hv, p, hm => by
    obtain ⟨hn, hcs⟩ := hv
    have hp' : ∀ e ∈ pre ++ [n], Path.Name e := by
      intro e he
      rcases List.mem_append.1 he with h | h
      · exact hp e h
      · rw [List.mem_singleton.1 h]; exact hn
    rw [Node.emit] at hm
    obtain ⟨m, _, hb⟩ := below_list (pre ++ [n]) hp' cs hcs p hm
    exact hb.up
  | .blob n r c, hv, p, hm => by
    rw [Node.emit] at hm
    have : p = Path.slashed (pre ++ [n]) := by simpa [paths] using hm
    refine ⟨[], this, ?_⟩
    intro e he
    rcases List.mem_append.1 he with h | h
    · exact hp e h
    · rw [List.mem_singleton.1 h]; exact hv
  | .other n, hv, p, hm => by rw [Node.emit] at hm; simp [paths] at hm
theorem below_list (pre : List Bytes) (hp : ∀ e ∈ pre, Path.Name e) : ∀ ns : List Node, Valid ns →
    ∀ p ∈ paths (emit pre ns), ∃ x ∈ ns, Below pre x.name p
  | [], _, p, hm => by rw [emit] at hm; simp [paths] at hm
  | n :: ns, hv, p, hm => by
    rw [emit, paths_append] at hm
    rcases List.mem_append.1 hm with h | h
    · exact ⟨n, by simp, below_node pre hp n hv.1 p h⟩
    · obtain ⟨x, hx, hb⟩ := below_list pre hp ns hv.2.2 p h
      exact ⟨x, by simp [hx], hb⟩
end

mutual
theorem nodup_node (pre : List Bytes) (hp : ∀ e ∈ pre, Path.Name e) : ∀ n : Node, n.Valid →
    (paths (n.emit pre)).Nodup
  | .tree n r cs, hv => by
    obtain ⟨hn, hcs⟩ := hv
    have hp' : ∀ e ∈ pre ++ [n], Path.Name e := by
      intro e he
      rcases List.mem_append.1 he with h | h
      · exact hp e h
      · rw [List.mem_singleton.1 h]; exact hn
    rw [Node.emit]
    exact nodup_list (pre ++ [n]) hp' cs hcs
  | .blob n r c, _ => by rw [Node.emit]; simp [paths]
  | .other n, _ => by rw [Node.emit]; simp [paths]
theorem nodup_list (pre : List Bytes) (hp : ∀ e ∈ pre, Path.Name e) : ∀ ns : List Node, Valid ns →
    (paths (emit pre ns)).Nodup
  | [], _ => by rw [emit]; simp [paths]
  | n :: ns, hv => by
    rw [emit, paths_append]
    refine List.nodup_append.2 ⟨nodup_node pre hp n hv.1, nodup_list pre hp ns hv.2.2, ?_⟩
    intro a ha b hb he
    subst he
    obtain ⟨x, hx, hbx⟩ := below_list pre hp ns hv.2.2 a hb
    exact hv.2.1 x hx (hbx.inj (below_node pre hp n hv.1 a ha))
end

theorem names_line {shard id : Bytes} (hs : shard ≠ []) (hi : Path.Name id) {es : List Bytes} (hne : es ≠ [])
    (he : ∀ e ∈ es, Path.Name e) :
    Path.names (Path.join [shard, id ++ '/' :: Path.slashed es]) = Path.names shard ++ id :: es := by
  have h : id ++ '/' :: Path.slashed es = Path.slashed (id :: es) := by
    cases es with
    | nil => exact absurd rfl hne
    | cons e es => rfl
  rw [h]
  exact names_join_slashed hs (by simp) (by
    intro e hm
    rcases List.mem_cons.1 hm with rfl | hm
    · exact hi
    · exact he e hm)

theorem contents_each {ns : List Node} (hv : Valid ns) {x : Node} (hx : x ∈ ns) (r : List Bytes) :
    contents ns (x.name :: r) = contents [x] (x.name :: r) := by
  induction ns with
  | nil => simp at hx
  | cons n ns ih =>
    rcases List.mem_cons.1 hx with rfl | hx
    · exact contents_cons_eq _ _ _
    · rw [contents_cons_ne _ _ _ _ (fun he => hv.2.1 x hx he.symm)]
      exact ih hv.2.2 hx

mutual
theorem sum_node {fs : FS} {shard id : Bytes} (hs : shard ≠ []) (hi : Path.Name id) (pre : List Bytes)
    (hp : ∀ e ∈ pre, Path.Name e) : ∀ n : Node, n.Valid →
    (∀ r, fs (Path.names shard ++ id :: (pre ++ n.name :: r)) = contents [n] (n.name :: r)) →
    ((listed shard id (n.emit pre)).map (sizeAt fs)).sum = n.total
  | .tree n r cs, hv, hc => by
    obtain ⟨hn, hcs⟩ := hv
    have hp' : ∀ e ∈ pre ++ [n], Path.Name e := by
      intro e he
      rcases List.mem_append.1 he with h | h
      · exact hp e h
      · rw [List.mem_singleton.1 h]; exact hn
    rw [Node.emit]
    have hl : listed shard id (.dir (Path.slashed (pre ++ [n])) :: emit (pre ++ [n]) cs) =
        listed shard id (emit (pre ++ [n]) cs) := rfl
    rw [hl, sum_each hs hi (pre ++ [n]) hp' cs hcs]
    · rfl
    · intro x hx s
      have := hc (x.name :: s)
      have hname : (Node.tree n r cs).name = n := rfl
      rw [hname] at this
      rw [List.append_assoc, List.singleton_append, this, ← contents_each hcs hx]
      conv_lhs => unfold contents
      simp [hname]
  | .blob n r c, hv, hc => by
    have hn : Path.Name n := hv
    have hp' : ∀ e ∈ pre ++ [n], Path.Name e := by
      intro e he
      rcases List.mem_append.1 he with h | h
      · exact hp e h
      · rw [List.mem_singleton.1 h]; exact hn
    have h := hc []
    rw [Node.emit]
    simp only [listed, List.filterMap_cons, List.filterMap_nil, List.map_cons, List.map_nil, List.sum_cons,
      List.sum_nil, Nat.add_zero]
    rw [names_line hs hi (by simp) hp']
    unfold sizeAt
    simp only [Node.name] at h
    rw [h]
    simp [contents, Node.name, Node.total]
  | .other n, _, _ => by rw [Node.emit]; simp [listed, Node.total]
theorem sum_each {fs : FS} {shard id : Bytes} (hs : shard ≠ []) (hi : Path.Name id) (pre : List Bytes)
    (hp : ∀ e ∈ pre, Path.Name e) : ∀ xs : List Node, Valid xs →
    (∀ x ∈ xs, ∀ r, fs (Path.names shard ++ id :: (pre ++ x.name :: r)) = contents [x] (x.name :: r)) →
    ((listed shard id (emit pre xs)).map (sizeAt fs)).sum = total xs
  | [], _, _ => by rw [emit]; simp [listed, total]
  | x :: xs, hv, hc => by
    rw [emit]
    have hl : listed shard id (x.emit pre ++ emit pre xs) =
        listed shard id (x.emit pre) ++ listed shard id (emit pre xs) := by unfold listed; rw [List.filterMap_append]
    rw [hl, List.map_append, List.sum_append, sum_node hs hi pre hp x hv.1 (hc x (by simp)),
      sum_each hs hi pre hp xs hv.2.2 (fun y hy => hc y (by simp [hy])), total]
end

theorem listed_nodup {shard id : Bytes} (hs : shard ≠ []) (hi : Path.Name id) {ns : List Node} (hv : Valid ns) :
    (listed shard id (emit [] ns)).Nodup := by
  have hb := below_list [] (by simp) ns hv
  have hn := nodup_list [] (by simp) ns hv
  have hl : ∀ ms : List Member, listed shard id ms =
      (paths ms).map fun n => Path.names (Path.join [shard, id ++ '/' :: n]) := by
    intro ms
    induction ms with
    | nil => rfl
    | cons m ms ih =>
      cases m with
      | dir n => simpa [listed, paths] using ih
      | file n c => simpa [listed, paths] using ih
  rw [hl]
  refine List.Nodup.map_on ?_ hn
  intro x hx y hy he
  obtain ⟨a, _, r, h1, h2⟩ := hb x hx
  obtain ⟨b, _, r', h1', h2'⟩ := hb y hy
  rw [h1, h1'] at he ⊢
  rw [names_line hs hi (by simp) h2, names_line hs hi (by simp) h2'] at he
  have := List.append_cancel_left he
  injection this with _ h3
  rw [h3]

/-- **C107** (after a restart). The size that `Verify` finds for the unpacked input, from the lines of its `.sha1` file,
is the size that was accounted for when it was unpacked. -/
theorem C107_verify {S : Type} {C : Codec} (hC : C.Lawful) {H : Bytes → Bytes} {gio : Bytes → Bool}
    {rio : List Bytes → Bool} {decode : Bytes → Option S} {shard id : Bytes} (hs : shard ≠ []) (hi : Path.Name id)
    {root : List Node} (hv : Valid root) {ms : List Member} {size : Nat}
    (hg : createArchive gio root = some (ms, size)) {file body : Bytes} (hst : StoredAs C ms file)
    (hcol : H body = H file → body = file) {fs fs' : FS} (hfresh : Fresh fs shard id) {s : S} {n : Nat}
    (hr : fetch C H rio decode (inputPath shard id) fs (H file) (some size) body = some (fs', s, n)) :
    verifySize fs' (listed shard id ms) = n := by
  obtain ⟨rfl, h2, _⟩ := createArchive_some hv hg
  have hvc := cut_valid root hv
  have h := (fetch_some hC hst hcol hr).2
  obtain ⟨h3, _, _, h4, _⟩ := runnerPersist_emit hs hi hfresh hvc h
  unfold verifySize
  rw [List.Nodup.dedup (listed_nodup hs hi hvc), h4]
  exact sum_each hs hi [] (by simp) _ hvc (fun x hx r => (h3 _).trans (contents_each hvc hx r))

/-! ### C108: nothing but the input's own directory -/

/-- **C108** (partial: for trees with names that git allows; see `C108_escapes`). Unpacking an input changes nothing
outside of the input's directory, but for making the directories above it; the temporary directory is gone. -/
theorem C108_confined_partial {S : Type} {C : Codec} (hC : C.Lawful) {H : Bytes → Bytes} {gio : Bytes → Bool}
    {rio : List Bytes → Bool} {decode : Bytes → Option S} {shard id : Bytes} (hs : shard ≠ []) (hi : Path.Name id)
    {root : List Node} (hv : Valid root) {ms : List Member} {size : Nat}
    (hg : createArchive gio root = some (ms, size)) {file body : Bytes} (hst : StoredAs C ms file)
    (hcol : H body = H file → body = file) {fs fs' : FS} (hfresh : Fresh fs shard id) {s : S} {n : Nat}
    (hr : fetch C H rio decode (inputPath shard id) fs (H file) (some size) body = some (fs', s, n)) (q : List Bytes)
    (hq : ¬ Path.names (inputPath shard id) <+: q) :
    fs' q = fs q ∨ (fs q = none ∧ fs' q = some .dir ∧ q <+: Path.names shard) := by
  obtain ⟨rfl, _, _⟩ := createArchive_some hv hg
  have h := (fetch_some hC hst hcol hr).2
  obtain ⟨_, h2, h3, _⟩ := runnerPersist_emit hs hi hfresh (cut_valid root hv) h
  rw [names_path hs hi] at hq
  by_cases ht : (Path.names shard ++ [id ++ dotTmp]) <+: q
  · left
    obtain ⟨r, rfl⟩ := ht
    rw [List.append_assoc]
    show fs' (Path.names shard ++ (id ++ dotTmp) :: r) = fs (Path.names shard ++ (id ++ dotTmp) :: r)
    rw [h2 r, (hfresh r).2]
  · exact h3 q hq ht

/-! ### C109: settings -/

theorem contents_cut_file : ∀ (ns : List Node) (m c : Bytes), contents (cut ns).1 [m] = some (.file c) →
    contents ns [m] = some (.file c)
  | [], m, c, h => h
  | n :: ns, m, c, h => by
    have hnode : contents [n.cut.1] [m] = some (.file c) → n.name = m → contents (n :: ns) [m] = some (.file c) := by
      intro h hm
      subst hm
      rw [contents_cons_eq]
      cases n with
      | tree n r cs =>
        exfalso
        have hcn := cut_name (.tree n r cs)
        unfold Node.cut at h
        split_ifs at h <;> simp [contents, Node.name] at h
      | blob n r c' => exact h
      | other n => exact h
    by_cases hm : n.name = m
    · refine hnode ?_ hm
      unfold cut at h
      split_ifs at h
      · have hcn := cut_name n
        rw [hm] at hcn
        rw [← hcn, contents_cons_eq] at h
        rw [← hcn]; exact h
      · exact h
    · rw [contents_cons_ne _ _ _ _ hm]
      unfold cut at h
      have hcn : n.cut.1.name ≠ m := by rw [cut_name]; exact hm
      split_ifs at h
      · dsimp only at h
        rw [contents_cons_ne _ _ _ _ hcn] at h
        exact contents_cut_file ns m c h
      · dsimp only at h
        rw [contents_none (by simpa using hcn)] at h
        exact absurd h (by simp)

/-- **C109.** When the grader read settings from a problem's tree and a runner unpacked the input of the same tree, the
runner has the same settings, given that a decoder reads what `json.Unmarshal` accepts in the same way. -/
theorem C109_settings {S : Type} {C : Codec} (hC : C.Lawful) {H : Bytes → Bytes} {gio : Bytes → Bool}
    {rio : List Bytes → Bool} {unmarshal decode : Bytes → Option S}
    (hjson : ∀ c s, unmarshal c = some s → decode c = some s) {shard id : Bytes} (hs : shard ≠ []) (hi : Path.Name id)
    {root : List Node} (hv : Valid root) {t : S} (hp : problemSettings unmarshal root = some t)
    {ms : List Member} {size : Nat}
    (hg : createArchive gio root = some (ms, size)) {file body : Bytes} (hst : StoredAs C ms file)
    (hcol : H body = H file → body = file) {fs fs' : FS} (hfresh : Fresh fs shard id) {s : S} {n : Nat}
    (hr : fetch C H rio decode (inputPath shard id) fs (H file) (some size) body = some (fs', s, n)) : s = t := by
  obtain ⟨rfl, _, _⟩ := createArchive_some hv hg
  have h := (fetch_some hC hst hcol hr).2
  obtain ⟨_, _, _, _, _, c, hc, hd⟩ := runnerPersist_emit hs hi hfresh (cut_valid root hv) h
  have hc' := contents_cut_file root _ c hc
  have hfun : isSettings = fun x => x.name == settingsName := by
    funext x; cases x <;> rfl
  unfold problemSettings at hp
  unfold contents at hc'
  rw [hfun] at hp
  cases hf : root.find? (fun x => x.name == settingsName) with
  | none => rw [hf] at hc'; simp at hc'
  | some x =>
    rw [hf] at hc' hp
    cases x with
    | tree _ _ _ => simp at hp
    | other _ => simp at hp
    | blob nm rd c2 =>
      simp only [if_true, Option.some.injEq, Ent.file.injEq] at hc'
      cases rd with
      | false => simp at hp
      | true =>
        simp only at hp
        rw [hc'] at hp
        have := hjson _ _ hp
        rw [this] at hd
        injection hd with hd
        exact hd.symm

end Quark.Archive
