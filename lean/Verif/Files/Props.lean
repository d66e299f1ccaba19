import Verif.Files.Model
import Verif.Path.Lemmas
import Mathlib.Data.List.TakeWhile

namespace Quark.Files

open Path

/-! ### Decimal numbers -/

/-- The number that a list of digits stands for. -/
def value (cs : List Char) : Nat := cs.foldl (fun a c => a * 10 + (c.toNat - 48)) 0

theorem digit_toNat {n : Nat} (h : n < 10) : (digit n).toNat = n + 48 := by
  unfold digit
  have h : ∀ n < 10, (Char.ofNat (n + 48)).toNat = n + 48 := by decide
  exact h n ‹_›

theorem value_dec (n : Nat) : value (dec n) = n := by
  induction n using Nat.strongRecOn with
  | ind n ih =>
    rw [dec]
    split
    · rename_i h
      simp [value, digit_toNat h]
    · rename_i h
      have := ih (n / 10) (by omega)
      unfold value at this ⊢
      rw [List.foldl_append, this]
      simp only [List.foldl_cons, List.foldl_nil]
      rw [digit_toNat (Nat.mod_lt _ (by omega))]
      omega

theorem dec_digits (n : Nat) : ∀ c ∈ dec n, 48 ≤ c.toNat ∧ c.toNat < 58 := by
  induction n using Nat.strongRecOn with
  | ind n ih =>
    rw [dec]
    split
    · rename_i h
      intro c hc
      simp only [List.mem_singleton] at hc
      subst hc
      rw [digit_toNat h]; omega
    · intro c hc
      rcases List.mem_append.1 hc with hc | hc
      · exact ih (n / 10) (by omega) c hc
      · simp only [List.mem_singleton] at hc
        subst hc
        rw [digit_toNat (Nat.mod_lt _ (by omega))]; omega

theorem dec_ne_nil (n : Nat) : dec n ≠ [] := by rw [dec]; split <;> simp

theorem dec_inj {m n : Nat} (h : dec m = dec n) : m = n := by rw [← value_dec m, h, value_dec]

theorem fmtD_inj {i j : Int} (h : fmtD i = fmtD j) : i = j := by
  have hminus : ∀ (m n : Nat), '-' :: dec m ≠ dec n := by
    intro m n hmn
    have := dec_digits n '-' (by rw [← hmn]; simp)
    revert this; decide
  unfold fmtD at h
  split at h <;> split at h
  · have := dec_inj (List.cons.inj h).2; omega
  · exact absurd h (hminus _ _)
  · exact absurd h.symm (hminus _ _)
  · have := dec_inj h; omega

/-- A list of characters none of which is a slash or a dot is a file name, if it is not empty. -/
theorem name_of {e : List Char} (hne : e ≠ []) (h : ∀ c ∈ e, c ≠ '/' ∧ c ≠ '.') : Name e := by
  refine ⟨⟨hne, ?_, fun hm => (h _ hm).1 rfl⟩, ?_⟩
  · rintro rfl; exact (h '.' (by simp [dot])).2 rfl
  · rintro rfl; exact (h '.' (by simp [dotdot])).2 rfl

theorem digit_ok {c : Char} (h : 48 ≤ c.toNat ∧ c.toNat < 58) : c ≠ '/' ∧ c ≠ '.' := by
  constructor <;> (rintro rfl; revert h; decide)

theorem name_fmtD (i : Int) : Name (fmtD i) := by
  unfold fmtD
  split
  · refine name_of (by simp) ?_
    intro c hc
    rcases List.mem_cons.1 hc with rfl | hc
    · decide
    · exact digit_ok (dec_digits _ c hc)
  · exact name_of (dec_ne_nil _) fun c hc => digit_ok (dec_digits _ c hc)

theorem name_fmt02D (i : Int) : Name (fmt02D i) := by
  unfold fmt02D
  split
  · refine name_of (by simp) ?_
    intro c hc
    rcases List.mem_cons.1 hc with rfl | hc
    · decide
    · exact digit_ok (dec_digits _ c hc)
  · split
    · refine name_of (by simp) ?_
      intro c hc
      rcases List.mem_cons.1 hc with rfl | hc
      · decide
      · exact digit_ok (dec_digits _ c hc)
    · exact name_of (dec_ne_nil _) fun c hc => digit_ok (dec_digits _ c hc)

/-! ### Joining several names -/

theorem foldl_push_names (r : Bool) (es : List (List Char)) (acc : List (List Char)) (h : ∀ e ∈ es, Name e) :
    es.foldl (push r) acc = es.reverse ++ acc := by
  induction es generalizing acc with
  | nil => rfl
  | cons e es ih =>
    have he := h e (by simp)
    simp only [List.foldl_cons]
    rw [show push r acc e = e :: acc by
      unfold push
      rw [if_neg (by rintro (h | h); exact he.1.1 h; exact he.1.2.1 h), if_neg he.2]]
    rw [ih _ (fun x hx => h x (by simp [hx]))]
    simp

/-- Joining things that are made of file names appends the names. -/
theorem names_join_names {d : List Char} (hd : d ≠ []) {es : List (List Char)}
    (h : ∀ e ∈ es.flatMap elems, Name e) : names (join (d :: es)) = names d ++ es.flatMap elems := by
  rw [names_join hd, foldl_push_names _ _ _ h]; simp

theorem flatMap_elems {es : List (List Char)} (h : ∀ e ∈ es, '/' ∉ e) : es.flatMap elems = es := by
  induction es with
  | nil => rfl
  | cons e es ih =>
    rw [List.flatMap_cons, elems_noslash (h e (by simp)), ih (fun x hx => h x (by simp [hx]))]; rfl

theorem join_ne_nil {d : List Char} (hd : d ≠ []) (es : List (List Char)) : join (d :: es) ≠ [] := by
  rw [join_cons hd]; exact clean_ne_nil _

theorem elems_two {a b : List Char} (ha : '/' ∉ a) (hb : '/' ∉ b) : elems (a ++ '/' :: b) = [a, b] := by
  rw [elems_append_slash, elems_noslash ha, elems_noslash hb]; rfl

theorem names_gradeDir {root : List Char} (hroot : root ≠ []) (id : Int) :
    names (gradeDir root id) =
      names root ++ [fmt02D (id.tmod 100), fmt02D ((id.tmod 10000).tdiv 100), fmtD id] := by
  have h : [fmt02D (id.tmod 100) ++ '/' :: fmt02D ((id.tmod 10000).tdiv 100) ++ '/' :: fmtD id].flatMap elems =
      [fmt02D (id.tmod 100), fmt02D ((id.tmod 10000).tdiv 100), fmtD id] := by
    simp only [List.flatMap_cons, List.flatMap_nil, List.append_nil]
    rw [elems_append_slash, elems_two (name_fmt02D _).1.2.2 (name_fmt02D _).1.2.2,
      elems_noslash (name_fmtD _).1.2.2]
    rfl
  unfold gradeDir
  rw [names_join_names hroot, h]
  rw [h]
  intro e he
  simp only [List.mem_cons, List.not_mem_nil, or_false] at he
  rcases he with rfl | rfl | rfl
  · exact name_fmt02D _
  · exact name_fmt02D _
  · exact name_fmtD _

theorem gradeDir_ne_nil {root : List Char} (hroot : root ≠ []) (id : Int) : gradeDir root id ≠ [] :=
  join_ne_nil hroot _

/-- **C57** (grade directories). Different runs have different grade directories, for all identifiers of either
sign; each is three levels below the grade path and ends with the run's identifier in decimal. -/
theorem C57_gradeDir (root : List Char) (hroot : root ≠ []) (id : Int) :
    (∀ id', gradeDir root id = gradeDir root id' → id = id') ∧
    rooted (gradeDir root id) = rooted root ∧
    ∃ a b, names (gradeDir root id) = names root ++ [a, b, fmtD id] := by
  refine ⟨?_, rooted_join hroot _, _, _, names_gradeDir hroot id⟩
  intro id' h
  have h1 := names_gradeDir hroot id
  rw [h, names_gradeDir hroot id'] at h1
  have := List.append_cancel_left h1
  simp only [List.cons.injEq, and_true] at this
  exact (fmtD_inj this.2.2).symm

/-- **C57** (no nesting). No grade directory is inside another one, so deleting one run's directory before an
upload (cmd/omegaup-grader/runner_handler.go:33) does not touch another run's files. -/
theorem C57_not_nested (root : List Char) (hroot : root ≠ []) (id id' : Int)
    (h : names (gradeDir root id) <+: names (gradeDir root id')) : id = id' := by
  rw [names_gradeDir hroot, names_gradeDir hroot] at h
  have h2 := (List.prefix_append_right_inj _).1 h
  have h3 := h2.eq_of_length (by simp)
  simp only [List.cons.injEq, and_true] at h3
  exact fmtD_inj h3.2.2

/-- **C57** (resources). A resource request that passes the check opens a file directly inside the grade
directory of the run it names, and the file has the name that was asked for; so different accepted requests open
different files. -/
theorem C57_resource (root : List Char) (hroot : root ≠ []) (id : Int) (filename f : List Char)
    (h : resource root id filename = some f) :
    names f = names (gradeDir root id) ++ [filename] ∧ rooted f = rooted root ∧ Name filename ∧
    ∀ id' filename', resource root id' filename' = some f → id = id' ∧ filename = filename' := by
  have key : ∀ id filename, resource root id filename = some f →
      names f = names (gradeDir root id) ++ [filename] ∧ rooted f = rooted root ∧ Name filename := by
    intro id filename h
    unfold resource at h
    split at h
    · exact absurd h (by simp)
    · split at h
      · exact absurd h (by simp)
      · rename_i hc
        simp only [not_or] at hc
        have hn : Name filename := by
          refine ⟨⟨hc.1, ?_, hc.2.2⟩, ?_⟩ <;> (rintro rfl; exact hc.2.1 rfl)
        cases h
        refine ⟨names_join_name (gradeDir_ne_nil hroot _) hn, ?_, hn⟩
        rw [rooted_join (gradeDir_ne_nil hroot _)]
        exact rooted_join hroot _
  obtain ⟨h1, h2, h3⟩ := key id filename h
  refine ⟨h1, h2, h3, ?_⟩
  intro id' filename' h'
  have h4 := (key id' filename' h').1
  rw [h1, names_gradeDir hroot, names_gradeDir hroot, List.append_assoc, List.append_assoc] at h4
  have := List.append_cancel_left h4
  simp only [List.cons_append, List.nil_append, List.cons.injEq, and_true] at this
  exact ⟨fmtD_inj this.2.2.1, this.2.2.2⟩

/-! Run 12345 and its `files.zip`; requests that are turned down. -/
example : String.ofList (gradeDir "/var/lib/omegaup/grade".toList 12345) = "/var/lib/omegaup/grade/45/23/12345" := by
  decide +kernel
example : String.ofList (gradeDir "/var/lib/omegaup/grade".toList 7) = "/var/lib/omegaup/grade/07/00/7" := by
  decide +kernel
example : (resource "/g".toList 12345 "files.zip".toList).map String.ofList = some "/g/45/23/12345/files.zip" := by
  decide +kernel
example : [resource "/g".toList 1 "..".toList, resource "/g".toList 1 "a/b".toList, resource "/g".toList 1 [],
    resource "/g".toList 0 "a".toList] = [none, none, none, none] := by decide +kernel

/-! ### Hashes -/

theorem isHex_ok {c : Char} (h : isHex c = true) : c ≠ '/' ∧ c ≠ '.' := by
  constructor <;> (rintro rfl; revert h; decide)

theorem isAlias_ok {c : Char} (h : isAlias c = true) : c ≠ '/' ∧ c ≠ '.' := by
  constructor <;> (rintro rfl; revert h; decide)

theorem name_take {h : List Char} (hh : h.all isHex = true) (n : Nat) (hn : 0 < n) (hl : 0 < h.length) :
    Name (h.take n) := by
  refine name_of ?_ fun c hc => isHex_ok (List.all_eq_true.1 hh c (List.mem_of_mem_take hc))
  intro h0
  rw [List.take_eq_nil_iff] at h0
  rcases h0 with h0 | h0
  · omega
  · simp [h0] at hl

theorem name_drop {h : List Char} (hh : h.all isHex = true) (n : Nat) (hl : n < h.length) : Name (h.drop n) := by
  refine name_of ?_ fun c hc => isHex_ok (List.all_eq_true.1 hh c (List.mem_of_mem_drop hc))
  intro h0
  rw [List.drop_eq_nil_iff] at h0
  omega

theorem split_inj {a b : List Char} {n : Nat} (h1 : a.take n = b.take n) (h2 : a.drop n = b.drop n) : a = b := by
  rw [← List.take_append_drop n a, ← List.take_append_drop n b, h1, h2]

/-- **C68** (submission sources). A request for a source that is accepted opens the file
`submissions/xx/rest` below the runtime path, where `xxrest` is the identifier that was asked for; different
identifiers open different files. -/
theorem C68_source (root : List Char) (hroot : root ≠ []) (guid f : List Char)
    (h : submissionSource root guid = some f) :
    names f = names root ++ ["submissions".toList, guid.take 2, guid.drop 2] ∧ rooted f = rooted root ∧
    ∀ guid', submissionSource root guid' = some f → guid = guid' := by
  have key : ∀ guid, submissionSource root guid = some f →
      names f = names root ++ ["submissions".toList, guid.take 2, guid.drop 2] ∧ rooted f = rooted root := by
    intro guid h
    unfold submissionSource at h
    split at h
    · exact absurd h (by simp)
    · rename_i hc
      simp only [not_or, Decidable.not_not] at hc
      cases h
      have hn : ∀ e ∈ ["submissions".toList, guid.take 2, guid.drop 2], Name e := by
        intro e he
        simp only [List.mem_cons, List.not_mem_nil, or_false] at he
        rcases he with rfl | rfl | rfl
        · decide +kernel
        · exact name_take hc.2 2 (by omega) (by omega)
        · exact name_drop hc.2 2 (by omega)
      have hf := flatMap_elems (fun e he => (hn e he).1.2.2)
      exact ⟨by rw [names_join_names hroot (by rw [hf]; exact hn), hf], rooted_join hroot _⟩
  obtain ⟨h1, h2⟩ := key guid h
  refine ⟨h1, h2, fun guid' h' => ?_⟩
  have h3 := (key guid' h').1
  rw [h1] at h3
  have := List.append_cancel_left h3
  simp only [List.cons.injEq, true_and, and_true] at this
  exact split_inj this.1 this.2

/-- A hash as it appears in URLs and in runs: forty hexadecimal digits. -/
def IsHash (h : List Char) : Prop := h.length = 40 ∧ h.all isHex = true

theorem names_archivePath {root h : List Char} (hroot : root ≠ []) (hh : IsHash h) :
    names (archivePath root h) =
      names root ++ ["cache".toList, h.take 2, h.drop 2 ++ ".tar.gz".toList] := by
  have h1 : Name (h.take 2) := name_take hh.2 2 (by omega) (by have := hh.1; omega)
  have h2 : Name (h.drop 2) := name_drop hh.2 2 (by have := hh.1; omega)
  have h3 : Name (h.drop 2 ++ ".tar.gz".toList) := by
    have htar : '/' ∉ ".tar.gz".toList := by decide
    have hlen : 8 ≤ (h.drop 2 ++ ".tar.gz".toList).length := by
      have : (".tar.gz".toList).length = 7 := by decide
      rw [List.length_append, List.length_drop, this]; have := hh.1; omega
    refine ⟨⟨?_, ?_, ?_⟩, ?_⟩
    · intro h0; rw [h0] at hlen; simp at hlen
    · intro h0; rw [h0] at hlen; simp [dot] at hlen
    · intro hm
      rcases List.mem_append.1 hm with hm | hm
      · exact h2.1.2.2 hm
      · exact htar hm
    · intro h0; rw [h0] at hlen; simp [dotdot] at hlen
  have hf : ["cache".toList, h.take 2 ++ '/' :: h.drop 2 ++ ".tar.gz".toList].flatMap elems =
      ["cache".toList, h.take 2, h.drop 2 ++ ".tar.gz".toList] := by
    have : elems "cache".toList = ["cache".toList] := by decide +kernel
    simp only [List.flatMap_cons, List.flatMap_nil, List.append_nil]
    rw [List.append_assoc, List.cons_append, elems_two h1.1.2.2 h3.1.2.2, this]
    rfl
  unfold archivePath
  rw [names_join_names hroot, hf]
  rw [hf]
  intro e he
  simp only [List.mem_cons, List.not_mem_nil, or_false] at he
  rcases he with rfl | rfl | rfl
  · decide +kernel
  · exact h1
  · exact h3

theorem names_runnerPath {root h : List Char} (hroot : root ≠ []) (hh : IsHash h) :
    names (runnerPath root h) = names root ++ ["input".toList, h.take 2, h.drop 2] := by
  have h1 : Name (h.take 2) := name_take hh.2 2 (by omega) (by have := hh.1; omega)
  have h2 : Name (h.drop 2) := name_drop hh.2 2 (by have := hh.1; omega)
  have hf : ["input".toList, h.take 2 ++ '/' :: h.drop 2].flatMap elems =
      ["input".toList, h.take 2, h.drop 2] := by
    have : elems "input".toList = ["input".toList] := by decide +kernel
    simp only [List.flatMap_cons, List.flatMap_nil, List.append_nil]
    rw [elems_two h1.1.2.2 h2.1.2.2, this]
    rfl
  unfold runnerPath
  rw [names_join_names hroot, hf]
  rw [hf]
  intro e he
  simp only [List.mem_cons, List.not_mem_nil, or_false] at he
  rcases he with rfl | rfl | rfl
  · decide +kernel
  · exact h1
  · exact h2

/-- **C68** (inputs). Different input hashes are kept in different archives by the grader and unpacked into
different directories by the runner, none inside another one. -/
theorem C68_inputs (root : List Char) (hroot : root ≠ []) (h h' : List Char) (hh : IsHash h) (hh' : IsHash h') :
    (names (archivePath root h) <+: names (archivePath root h') → h = h') ∧
    (names (runnerPath root h) <+: names (runnerPath root h') → h = h') := by
  constructor
  · intro hp
    rw [names_archivePath hroot hh, names_archivePath hroot hh'] at hp
    have h2 := ((List.prefix_append_right_inj _).1 hp).eq_of_length (by simp)
    simp only [List.cons.injEq, true_and, and_true] at h2
    exact split_inj h2.1 (List.append_cancel_right h2.2)
  · intro hp
    rw [names_runnerPath hroot hh, names_runnerPath hroot hh'] at hp
    have h2 := ((List.prefix_append_right_inj _).1 hp).eq_of_length (by simp)
    simp only [List.cons.injEq, true_and, and_true] at h2
    exact split_inj h2.1 h2.2

/-- **C68** (CI reports). An accepted CI URL has its report in `ci/problem/xx/rest/report.json.gz` below the
runtime path; different problems or commits have different reports. -/
theorem C68_ci (root : List Char) (hroot : root ≠ []) (problem commit f : List Char)
    (h : ciReport root problem commit = some f) :
    names f = names root ++
      ["ci".toList, problem, commit.take 2, commit.drop 2, "report.json.gz".toList] ∧
    rooted f = rooted root ∧
    ∀ problem' commit', ciReport root problem' commit' = some f → problem = problem' ∧ commit = commit' := by
  have key : ∀ problem commit, ciReport root problem commit = some f →
      names f = names root ++
        ["ci".toList, problem, commit.take 2, commit.drop 2, "report.json.gz".toList] ∧
      rooted f = rooted root := by
    intro problem commit h
    unfold ciReport at h
    split at h
    · exact absurd h (by simp)
    · rename_i hc
      simp only [not_or, Decidable.not_not] at hc
      obtain ⟨hp, hpa, hcl, hch⟩ := hc
      cases h
      have hn : ∀ e ∈ ["ci".toList, problem, commit.take 2, commit.drop 2, "report.json.gz".toList], Name e := by
        intro e he
        simp only [List.mem_cons, List.not_mem_nil, or_false] at he
        rcases he with rfl | rfl | rfl | rfl | rfl
        · decide +kernel
        · exact name_of hp fun c hc => isAlias_ok (List.all_eq_true.1 hpa c hc)
        · exact name_take hch 2 (by omega) (by omega)
        · exact name_drop hch 2 (by omega)
        · decide +kernel
      have hf := flatMap_elems (fun e he => (hn e he).1.2.2)
      exact ⟨by rw [names_join_names hroot (by rw [hf]; exact hn), hf], rooted_join hroot _⟩
  obtain ⟨h1, h2⟩ := key problem commit h
  refine ⟨h1, h2, fun problem' commit' h' => ?_⟩
  have h3 := (key problem' commit' h').1
  rw [h1] at h3
  have := List.append_cancel_left h3
  simp only [List.cons.injEq, true_and, and_true] at this
  exact ⟨this.1, split_inj this.2.1 this.2.2⟩

def exHash : List Char := "0123456789abcdef0123456789abcdef01234567".toList

example : IsHash exHash := by unfold IsHash; decide +kernel
example : String.ofList (archivePath "/var/lib/omegaup".toList exHash) =
    "/var/lib/omegaup/cache/01/23456789abcdef0123456789abcdef01234567.tar.gz" := by decide +kernel
example : (ciReport "/r".toList "sumas".toList exHash).map String.ofList =
    some "/r/ci/sumas/01/23456789abcdef0123456789abcdef01234567/report.json.gz" := by decide +kernel
example : (submissionSource "/r".toList (exHash.take 32)).map String.ofList =
    some "/r/submissions/01/23456789abcdef0123456789abcdef" := by decide +kernel

/-! ### Inputs of the runner -/

/-- `p` is in the directory `d`: the same root, and the names of `d` are the first names of `p`. -/
def Within (d p : List Char) : Prop := rooted p = rooted d ∧ names d <+: names p

theorem slashed_concat {ns : List (List Char)} (hne : ns ≠ []) (e : List Char) :
    slashed (ns ++ [e]) = slashed ns ++ '/' :: e := by
  induction ns with
  | nil => exact absurd rfl hne
  | cons a ns ih =>
    cases ns with
    | nil => simp [slashed]
    | cons b ns => simpa [slashed] using ih (by simp)

theorem dropWhile_tail {x e : List Char} (he : '/' ∉ e) :
    (((x ++ '/' :: e).reverse).dropWhile (· ≠ '/')).reverse = x ++ ['/'] := by
  have : (x ++ '/' :: e).reverse = e.reverse ++ '/' :: x.reverse := by simp
  rw [this, List.dropWhile_append_of_pos, List.dropWhile_cons_of_neg (by simp)]
  · simp
  · intro a ha
    simp only [List.mem_reverse] at ha
    simp only [decide_eq_true_eq, ne_eq]
    rintro rfl; exact he ha

theorem names_slash_end {x : List Char} (hx : x ≠ []) : names (x ++ ['/']) = names x := by
  unfold names
  have : rooted (x ++ ['/']) = rooted x := by
    cases x with
    | nil => exact absurd rfl hx
    | cons c x => simp [rooted]
  rw [this, elems_append_slash]
  simp [elems, push]

/-- `path.Dir` drops the last name. -/
theorem dir_clean {q : List Char} {ns : List (List Char)} {e : List Char} (h : names q = ns ++ [e]) :
    dir (clean q) = render (rooted q) ns := by
  have hcl := clean_names q
  rw [h] at hcl
  have he : '/' ∉ e := (hcl.elem e (by simp)).2.2
  have hns : Clean (rooted q) ns := by
    unfold Clean at hcl ⊢
    rw [List.reverse_append] at hcl
    exact Acc.tail (by simpa using hcl)
  by_cases hr : rooted q = true
  · rw [hr] at hns ⊢
    by_cases hnil : ns = []
    · subst hnil
      have ht : clean q = [] ++ '/' :: e := by unfold clean; rw [h, hr]; simp [render, slashed]
      unfold dir
      rw [ht, dropWhile_tail he]
      decide +kernel
    · have ht : clean q = ('/' :: slashed ns) ++ '/' :: e := by
        unfold clean; rw [h, hr]; simp [render, slashed_concat hnil]
      unfold dir
      rw [ht, dropWhile_tail he]
      have h1 := names_render hns
      have h0 : render true ns = '/' :: slashed ns := by simp [render]
      rw [h0] at h1 ⊢
      unfold clean
      rw [names_slash_end (by simp), h1]
      simp [rooted, render]
  · have hr' : rooted q = false := by simpa using hr
    rw [hr'] at hns ⊢
    by_cases hnil : ns = []
    · subst hnil
      have ht : clean q = e := by unfold clean; rw [h, hr']; simp [render, slashed]
      have h0 : (e.reverse.dropWhile (· ≠ '/')) = [] := by
        rw [List.dropWhile_eq_nil_iff]
        intro a ha
        simp only [List.mem_reverse] at ha
        simp only [decide_eq_true_eq, ne_eq]
        rintro rfl; exact he ha
      unfold dir
      rw [ht, h0]
      decide +kernel
    · have hsl : slashed ns ≠ [] := by
        intro h0
        cases ns with
        | nil => exact hnil rfl
        | cons a b =>
          have ha := (hns.elem a (by simp)).1
          cases b <;> simp [slashed, ha] at h0
      have ht : clean q = slashed ns ++ '/' :: e := by
        unfold clean; rw [h, hr']; simp [render, slashed_concat hnil]
      have h0 : render false ns = slashed ns := by simp [render, hnil]
      have h1 := names_render hns
      have h2 := rooted_slashed hnil hns.elem
      have h3 : rooted (slashed ns ++ ['/']) = false := by
        cases hs : slashed ns with
        | nil => exact absurd hs hsl
        | cons c x => rw [hs] at h2; simpa [rooted] using h2
      unfold dir
      rw [ht, dropWhile_tail he]
      unfold clean
      rw [names_slash_end hsl, h3]
      rw [h0] at h1 ⊢
      rw [h1, h0]

theorem split_at_slash {a b x y : List Char} (ha : '/' ∉ a) (hb : '/' ∉ b) (h : a ++ '/' :: x = b ++ '/' :: y) :
    a = b ∧ x = y := by
  induction a generalizing b with
  | nil =>
    cases b with
    | nil => simpa using h
    | cons c b => simp only [List.nil_append, List.cons_append, List.cons.injEq] at h; exact absurd h.1 (by
        rintro rfl; simp at hb)
  | cons c a ih =>
    cases b with
    | nil => simp only [List.nil_append, List.cons_append, List.cons.injEq] at h; exact absurd h.1 (by
        rintro rfl; simp at ha)
    | cons d b =>
      simp only [List.cons_append, List.cons.injEq] at h
      have := ih (fun hm => ha (by simp [hm])) (fun hm => hb (by simp [hm])) h.2
      exact ⟨by rw [h.1, this.1], this.2⟩

theorem prefix_before_slash {e m r : List Char} (he : '/' ∉ e) (h : e <+: m ++ '/' :: r) : e <+: m := by
  obtain ⟨t, ht⟩ := h
  rcases List.append_eq_append_iff.1 ht with ⟨as, h1, _⟩ | ⟨bs, h1, h2⟩
  · exact ⟨as, h1.symm⟩
  · cases bs with
    | nil => rw [h1]; simp
    | cons c bs =>
      simp only [List.cons_append, List.cons.injEq] at h2
      exact absurd (by rw [h1, ← h2.1]; simp) he

theorem slashed_cons {n : List Char} {ns : List (List Char)} (h : ns ≠ []) :
    slashed (n :: ns) = n ++ '/' :: slashed ns := by
  cases ns with
  | nil => exact absurd rfl h
  | cons a b => rfl

/-- What a common beginning of two clean paths means for their names. -/
theorem slashed_prefix {ns ms : List (List Char)} {e : List Char} (hns : ∀ x ∈ ns, '/' ∉ x) (he : '/' ∉ e)
    (hene : e ≠ []) (hms : ∀ x ∈ ms, '/' ∉ x) (h : slashed (ns ++ [e]) <+: slashed ms) :
    ∃ e' rest, ms = ns ++ e' :: rest ∧ e <+: e' := by
  induction ns generalizing ms with
  | nil =>
    simp only [List.nil_append, slashed] at h ⊢
    cases ms with
    | nil => simp only [slashed, List.prefix_nil] at h; exact absurd h hene
    | cons m ms =>
      refine ⟨m, ms, rfl, ?_⟩
      cases ms with
      | nil => simpa [slashed] using h
      | cons m' ms => rw [slashed_cons (by simp)] at h; exact prefix_before_slash he h
  | cons n ns ih =>
    rw [List.cons_append, slashed_cons (by simp)] at h
    cases ms with
    | nil => simp [slashed] at h
    | cons m ms =>
      by_cases hms0 : ms = []
      · subst hms0
        exfalso
        simp only [slashed] at h
        exact hms m (by simp) (h.subset (by simp))
      · rw [slashed_cons hms0] at h
        obtain ⟨t, ht⟩ := h
        rw [List.append_assoc, List.cons_append] at ht
        obtain ⟨h1, h2⟩ := split_at_slash (hns n (by simp)) (hms m (by simp)) ht
        obtain ⟨e', rest, h3, h4⟩ := ih (fun x hx => hns x (by simp [hx])) (fun x hx => hms x (by simp [hx]))
          ⟨t, h2⟩
        exact ⟨e', rest, by rw [h1, h3]; rfl, h4⟩

/-- **C39** (verification; partial: the file need not be in the input's own directory, see
`C39_sibling_accepted`). Whatever the `.sha1` file says, a file that is consulted while verifying an input lies in
the directory that holds the input, inside an entry whose name begins with the name of the input's directory.
In particular it lies in the input's directory unless that entry has a longer name, as `<hash>.tmp`. -/
theorem C39_verify_partial (root : List Char) (hroot : root ≠ []) (h name p : List Char) (hh : IsHash h)
    (hp : storedPath (runnerPath root h) name = some p) :
    rooted p = rooted root ∧
    ∃ e rest, names p = names root ++ ["input".toList, h.take 2] ++ e :: rest ∧ h.drop 2 <+: e ∧
      (e = h.drop 2 → Within (runnerPath root h) p) := by
  have hn := names_runnerPath hroot hh
  have hrp : rooted (runnerPath root h) = rooted root := rooted_join hroot _
  -- the input's path is clean
  obtain ⟨q, hq⟩ : ∃ q, runnerPath root h = clean q := ⟨_, join_cons hroot _⟩
  have hqn : names q = (names root ++ ["input".toList, h.take 2]) ++ [h.drop 2] := by
    rw [← names_clean, ← hq, hn]; simp
  have hqr : rooted q = rooted root := by rw [← rooted_clean, ← hq, hrp]
  have hcl := clean_names q
  rw [hqn] at hcl
  have hdir : dir (runnerPath root h) = render (rooted root) (names root ++ ["input".toList, h.take 2]) := by
    rw [hq, dir_clean hqn, hqr]
  have hns : Clean (rooted root) (names root ++ ["input".toList, h.take 2]) := by
    rw [hqr] at hcl
    unfold Clean at hcl ⊢
    rw [List.reverse_append] at hcl
    exact Acc.tail (by simpa using hcl)
  have hdne : dir (runnerPath root h) ≠ [] := by
    rw [hq]; unfold dir; exact clean_ne_nil _
  have hdr : rooted (dir (runnerPath root h)) = rooted root := by rw [hdir, rooted_render hns]
  unfold storedPath at hp
  dsimp only at hp
  split at hp
  · rename_i hpre
    cases hp
    have hpr : rooted (join [dir (runnerPath root h), name]) = rooted root := by rw [rooted_join hdne, hdr]
    refine ⟨hpr, ?_⟩
    have hpre : runnerPath root h <+: join [dir (runnerPath root h), name] := by simpa using hpre
    obtain ⟨q', hq'⟩ : ∃ q', join [dir (runnerPath root h), name] = clean q' := ⟨_, join_cons hdne _⟩
    have hr' : rooted q' = rooted root := by rw [← rooted_clean, ← hq', hpr]
    have hnm : names (join [dir (runnerPath root h), name]) = names q' := by rw [hq', names_clean]
    rw [hnm]
    have hcl' := clean_names q'
    rw [hq', hq] at hpre
    unfold clean at hpre
    rw [hqn, hqr, hr'] at hpre
    have hm := hcl.elem
    have hm' := hcl'.elem
    have hgoal : ∃ e' rest, names q' = (names root ++ ["input".toList, h.take 2]) ++ e' :: rest ∧
        h.drop 2 <+: e' := by
      unfold render at hpre
      split at hpre
      · have : slashed ((names root ++ ["input".toList, h.take 2]) ++ [h.drop 2]) <+: slashed (names q') := by
          simpa using hpre
        exact slashed_prefix (fun x hx => (hm x (List.mem_append_left _ hx)).2.2) (hm _ (by simp)).2.2 (hm _ (by simp)).1
          (fun x hx => (hm' x hx).2.2) this
      · rw [if_neg (by simp)] at hpre
        split at hpre
        · exfalso
          obtain ⟨t, ht⟩ := hpre
          rw [slashed_concat (by simp)] at ht
          have := congrArg List.length ht
          have hl : (h.drop 2).length = 38 := by rw [List.length_drop, hh.1]
          simp only [List.length_append, List.length_cons, hl, dot, List.length_nil] at this
          omega
        · exact slashed_prefix (fun x hx => (hm x (List.mem_append_left _ hx)).2.2) (hm _ (by simp)).2.2 (hm _ (by simp)).1
            (fun x hx => (hm' x hx).2.2) hpre
    obtain ⟨e', rest, h1, h2⟩ := hgoal
    refine ⟨e', rest, h1, h2, ?_⟩
    rintro rfl
    refine ⟨by rw [hpr, hrp], ?_⟩
    rw [hn, hnm, h1]
    exact ⟨rest, by simp⟩
  · exact absurd hp (by simp)

/-- **C39 is false of verification**: a `.sha1` file may name a file of another directory whose name begins with
the input's. -/
theorem C39_sibling_accepted :
    ∃ root h name p, IsHash h ∧ storedPath (runnerPath root h) name = some p ∧ ¬ Within (runnerPath root h) p := by
  refine ⟨"/r".toList, exHash, exHash.drop 2 ++ ".tmp/settings.json".toList, _, by unfold IsHash; decide +kernel,
    rfl, ?_⟩
  unfold Within
  decide +kernel

/-- **C39** (unpacking; partial: members with a `..` in their name are excluded, see `C39_unpack_escapes`). A
member of the archive whose name has no `..` element is written inside the temporary directory of the input. -/
theorem C39_unpack_partial (inputPath name : List Char) (hname : dotdot ∉ elems name) :
    Within (inputPath ++ ".tmp".toList) (unpackPath inputPath name) := by
  have hd : inputPath ++ ".tmp".toList ≠ [] := by
    intro h0
    have := congrArg List.length h0
    have h4 : (".tmp".toList).length = 4 := by decide
    rw [List.length_append, h4] at this
    simp at this
  refine ⟨rooted_join hd _, ?_⟩
  unfold unpackPath
  rw [names_join hd]
  simp only [List.flatMap_cons, List.flatMap_nil, List.append_nil]
  have : ∀ (r : Bool) (es acc : List (List Char)), dotdot ∉ es →
      acc <:+ es.foldl (push r) acc := by
    intro r es
    induction es with
    | nil => intro acc _; exact List.suffix_refl _
    | cons e es ih =>
      intro acc hne
      simp only [List.mem_cons, not_or] at hne
      refine List.IsSuffix.trans ?_ (ih _ hne.2)
      unfold push
      split
      · exact List.suffix_refl _
      · rw [if_neg (fun h => hne.1 h.symm)]
        exact List.suffix_cons _ _
  have h2 := this (rooted (inputPath ++ ".tmp".toList)) (elems name)
    (names (inputPath ++ ".tmp".toList)).reverse hname
  rw [← List.reverse_prefix, List.reverse_reverse] at h2
  exact h2

/-- **C39 is false of unpacking**: an archive may have a member that is written anywhere. -/
theorem C39_unpack_escapes :
    ∃ inputPath name, String.ofList (unpackPath inputPath name) = "/etc/cron.d/x" ∧
      ¬ Within (inputPath ++ ".tmp".toList) (unpackPath inputPath name) := by
  refine ⟨"/var/lib/omegaup/input/01/2345".toList, "../../../../../../etc/cron.d/x".toList, by decide +kernel, ?_⟩
  unfold Within
  decide +kernel

/-! What the runner writes itself is accepted and inside. -/
example : storedPath (runnerPath "/r".toList exHash) (exHash.drop 2 ++ "/cases/1.in".toList) =
    some (runnerPath "/r".toList exHash ++ "/cases/1.in".toList) := by decide +kernel
example : storedPath (runnerPath "/r".toList exHash) "../../etc/passwd".toList = none := by decide +kernel
example : dotdot ∉ elems "cases/1.in".toList ∧ String.ofList (unpackPath "/r/01/23".toList "cases/1.in".toList) =
    "/r/01/23.tmp/cases/1.in" := by decide +kernel

/-! ### Uploads -/

/-- **C69** (partial: only names that `filepath.Base` may return; for older Go releases see
`C69_upload_escapes`). With the file name reduced to its last element, an uploaded file is written directly
inside the run's directory, or the name is `.`, `..` or `/` and the path is that of the directory itself or of its
parent, where no file can be created. -/
theorem C69_upload_partial (gradeDir sent : List Char) (hd : gradeDir ≠ []) :
    names (uploadPath gradeDir (base sent)) = names gradeDir ++ [base sent] ∨
    base sent = dot ∨ base sent = ['/'] ∨ base sent = dotdot := by
  by_cases h1 : base sent = dot
  · exact Or.inr (Or.inl h1)
  by_cases h2 : base sent = ['/']
  · exact Or.inr (Or.inr (Or.inl h2))
  by_cases h3 : base sent = dotdot
  · exact Or.inr (Or.inr (Or.inr h3))
  left
  refine names_join_name hd ⟨⟨?_, h1, ?_⟩, h3⟩
  all_goals
    unfold base at h1 h2 ⊢
    split at h1
    · exact absurd rfl h1
    · rename_i hne
      rw [if_neg hne] at h2 ⊢
      cases hf : (elems sent).filter (· ≠ []) with
      | nil => rw [hf] at h2; exact absurd rfl h2
      | cons a b =>
        have hmem : (a :: b).getLast (by simp) ∈ (elems sent).filter (· ≠ []) := by
          rw [hf]; exact List.getLast_mem _
        simp only [List.getLast?_eq_getLast_of_ne_nil (List.cons_ne_nil a b), Option.getD_some]
        rw [List.mem_filter] at hmem
        first
          | exact slash_notMem_elems _ _ hmem.1
          | simpa using hmem.2

/-- **C69 is false with the Go release that go.mod names**: the sender's file name is used as it is, and the file
may be written anywhere. -/
theorem C69_upload_escapes :
    ∃ gradeDir sent, String.ofList (uploadPath gradeDir sent) = "/etc/cron.d/x" ∧
      ¬ Within gradeDir (uploadPath gradeDir sent) := by
  refine ⟨"/g/01/00/1".toList, "../../../../etc/cron.d/x".toList, by decide +kernel, ?_⟩
  unfold Within
  decide +kernel

example : String.ofList (uploadPath "/g/01/00/1".toList (base "x/files.zip".toList)) = "/g/01/00/1/files.zip" := by
  decide +kernel

end Quark.Files
