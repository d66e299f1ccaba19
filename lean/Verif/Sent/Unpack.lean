import Verif.Sent.Model
import Mathlib.Tactic.SplitIfs

/-!
# Unpacking an archive of files without directories
-/

namespace Quark.Sent

open Archive

/-- A name whose parts between slashes are all file names. -/
def Tidy (name : Bytes) : Prop := ∀ e ∈ Path.elems name, Path.Name e

theorem slashed_elems (p : Bytes) : Path.slashed (Path.elems p) = p := by
  induction p with
  | nil => rfl
  | cons c p ih =>
    rw [Path.elems]
    split
    · rename_i hc
      subst hc
      cases h : Path.elems p with
      | nil => exact absurd h (Path.elems_ne_nil p)
      | cons a b =>
        rw [h] at ih
        rw [Path.slashed, ih]
        · rfl
        · simp
    · cases h : Path.elems p with
      | nil => exact absurd h (Path.elems_ne_nil p)
      | cons a b =>
        rw [h] at ih
        rw [List.modifyHead]
        cases b with
        | nil => rw [Path.slashed] at ih ⊢; rw [ih]
        | cons b bs =>
          rw [Path.slashed] at ih ⊢
          · rw [List.cons_append, ih]
          · simp
          · simp

theorem elems_inj {a b : Bytes} (h : Path.elems a = Path.elems b) : a = b := by
  rw [← slashed_elems a, ← slashed_elems b, h]

/-- The disk has under `base` exactly the files `fl`, and the directories they are in. -/
structure Laid (fs : FS) (base : List Bytes) (fl : List (Bytes × Bytes)) : Prop where
  files : ∀ f ∈ fl, fs (base ++ Path.elems f.1) = some (.file f.2)
  only : ∀ r c, fs (base ++ r) = some (.file c) → ∃ f ∈ fl, r = Path.elems f.1 ∧ c = f.2
  dirs : ∀ r, fs (base ++ r) = some .dir ↔ r = [] ∨ ∃ f ∈ fl, r <+: Path.elems f.1 ∧ r ≠ Path.elems f.1

theorem laid_nil {fs : FS} {base : List Bytes} (hd : Dirs fs base) (hf : ∀ m r, fs (base ++ m :: r) = none) :
    Laid fs base [] := by
  refine ⟨by simp, ?_, ?_⟩
  · intro r c h
    cases r with
    | nil =>
      have := hd base (List.prefix_refl _)
      rw [List.append_nil, this] at h
      cases h
    | cons m r => rw [hf] at h; cases h
  · intro r
    cases r with
    | nil => simp [hd base (List.prefix_refl _)]
    | cons m r => simp [hf]

/-- One file. -/
theorem laid_step {fs fs1 fs2 : FS} {base pre : List Bytes} {l c name : Bytes} {fl : List (Bytes × Bytes)}
    (hL : Laid fs base fl) (he : Path.elems name = pre ++ [l]) (hnew : ∀ f ∈ fl, f.1 ≠ name)
    (hm : mkdirAll fs (base ++ pre) = some fs1) (hc : create fs1 (base ++ (pre ++ [l])) c = some fs2) :
    Laid fs2 base (fl ++ [(name, c)]) ∧ (∀ q, q <+: base → fs2 q = some .dir) ∧
      (∀ q, ¬ base <+: q → ¬ q <+: base → fs2 q = fs q) := by
  obtain ⟨hd, hkeep, hout⟩ := mkdirAll_some hm
  unfold create at hc
  split at hc
  swap
  · cases hc
  rename_i hcond
  injection hc with hc
  subst hc
  have hp1 : fs1 (base ++ (pre ++ [l])) = fs (base ++ (pre ++ [l])) := by
    apply hout
    intro h
    have := h.length_le
    simp at this
  have hnone : fs (base ++ (pre ++ [l])) = none := by
    cases hfs : fs (base ++ (pre ++ [l])) with
    | none => rfl
    | some e =>
      cases e with
      | dir => exact absurd (hp1.trans hfs) hcond.2
      | file c' =>
        obtain ⟨f, hf, h1, -⟩ := hL.only _ _ hfs
        exact absurd (elems_inj (by rw [← h1, he])) (hnew f hf)
  have hset : ∀ r, (fs1.set (base ++ (pre ++ [l])) (.file c)) (base ++ r) =
      if r = pre ++ [l] then some (.file c) else fs1 (base ++ r) := by
    intro r
    unfold FS.set
    by_cases h : r = pre ++ [l]
    · rw [if_pos h, if_pos (by rw [h])]
    · rw [if_neg h, if_neg (fun hh => h (List.append_cancel_left hh))]
  refine ⟨⟨?_, ?_, ?_⟩, ?_, ?_⟩
  · intro f hf
    rw [hset]
    rcases List.mem_append.1 hf with hf | hf
    · have h1 := hL.files f hf
      rw [if_neg, hkeep _ (by rw [h1]; simp), h1]
      intro hh
      rw [hh, hnone] at h1
      cases h1
    · rw [List.mem_singleton.1 hf, if_pos he]
  · intro r c' h
    rw [hset] at h
    split at h
    · rename_i hr
      injection h with h
      injection h with h
      exact ⟨(name, c), by simp, by rw [hr, he], h.symm⟩
    · by_cases hn : fs (base ++ r) = none
      · exfalso
        by_cases hp : base ++ r <+: base ++ pre
        · rw [hd _ hp] at h; cases h
        · rw [hout _ hp, hn] at h; cases h
      · rw [hkeep _ hn] at h
        obtain ⟨f, hf, h1⟩ := hL.only r c' h
        exact ⟨f, List.mem_append_left _ hf, h1⟩
  · intro r
    rw [hset]
    constructor
    · intro h
      split at h
      · cases h
      · rename_i hr
        by_cases hn : fs (base ++ r) = none
        · by_cases hp : base ++ r <+: base ++ pre
          · right
            refine ⟨(name, c), by simp, ?_, ?_⟩
            · show r <+: Path.elems name
              rw [he]
              exact ((List.prefix_append_right_inj base).1 hp).trans (List.prefix_append _ _)
            · show r ≠ Path.elems name
              rw [he]; exact hr
          · rw [hout _ hp, hn] at h; cases h
        · rw [hkeep _ hn] at h
          rcases (hL.dirs r).1 h with h | ⟨f, hf, h1⟩
          · exact Or.inl h
          · exact Or.inr ⟨f, List.mem_append_left _ hf, h1⟩
    · have hold : fs (base ++ r) = some .dir → (if r = pre ++ [l] then some (Ent.file c) else fs1 (base ++ r)) = some .dir := by
        intro h
        rw [if_neg, hkeep _ (by rw [h]; simp), h]
        rintro rfl
        rw [hnone] at h
        cases h
      rintro (rfl | ⟨f, hf, h1, h2⟩)
      · exact hold ((hL.dirs []).2 (Or.inl rfl))
      · rcases List.mem_append.1 hf with hf | hf
        · exact hold ((hL.dirs r).2 (Or.inr ⟨f, hf, h1, h2⟩))
        · rw [List.mem_singleton.1 hf] at h1 h2
          change r <+: Path.elems name at h1
          change r ≠ Path.elems name at h2
          rw [he] at h1 h2
          rw [if_neg h2]
          apply hd
          rcases prefix_snoc h1 with h3 | h3
          · exact absurd h3 h2
          · exact (List.prefix_append_right_inj base).2 h3
  · intro q hq
    unfold FS.set
    rw [if_neg]
    · exact hd q (hq.trans (List.prefix_append _ _))
    · rintro rfl
      have := hq.length_le
      simp at this
  · intro q hq1 hq2
    unfold FS.set
    rw [if_neg]
    · by_cases hp : q <+: base ++ pre
      · exfalso
        rcases List.prefix_or_prefix_of_prefix hp (List.prefix_append base pre) with h | h
        · exact hq2 h
        · exact hq1 h
      · exact hout q hp
    · rintro rfl
      exact hq1 (List.prefix_append _ _)

theorem split_last {name : Bytes} (ht : Tidy name) : ∃ pre l, Path.elems name = pre ++ [l] ∧
    (∀ e ∈ pre, Path.Name e) ∧ Path.Name l ∧ name = Path.slashed (pre ++ [l]) := by
  have hne := Path.elems_ne_nil name
  refine ⟨(Path.elems name).dropLast, (Path.elems name).getLast hne, (List.dropLast_append_getLast hne).symm, ?_, ?_, ?_⟩
  · exact fun e he => ht e (List.dropLast_subset _ he)
  · exact ht _ (List.getLast_mem hne)
  · rw [List.dropLast_append_getLast, slashed_elems]

theorem names_file {tmp name : Bytes} (h0 : tmp ≠ []) (ht : Tidy name) :
    Path.names (Path.join [tmp, name]) = Path.names tmp ++ Path.elems name := by
  have h := names_join_slashed h0 (Path.elems_ne_nil name) ht
  rwa [slashed_elems] at h

/-- **A successful unpacking.** -/
theorem unpack_files {io : List Bytes → Bool} {tmp : Bytes} (h0 : tmp ≠ []) :
    ∀ (fl done : List (Bytes × Bytes)) (fs fs' : FS) (n : Nat), (∀ f ∈ fl, Tidy f.1) →
    ((done ++ fl).map Prod.fst).Nodup → Laid fs (Path.names tmp) done →
    (∀ q, q <+: Path.names tmp → fs q = some .dir) → unpack io tmp fs (members fl) = some (fs', n) →
    Laid fs' (Path.names tmp) (done ++ fl) ∧ (∀ q, q <+: Path.names tmp → fs' q = some .dir) ∧
      (∀ q, ¬ Path.names tmp <+: q → fs' q = fs q) ∧ n = (fl.map fun f => f.2.length).sum
  | [], done, fs, fs', n, _, _, hL, hd, h => by
    rw [members, List.map_nil, unpack] at h
    injection h with h
    injection h with h1 h2
    subst h1 h2
    rw [List.append_nil]
    exact ⟨hL, hd, fun _ _ => rfl, rfl⟩
  | (name, c) :: fl, done, fs, fs', n, ht, hnd, hL, hd, h => by
    have htn : Tidy name := ht (name, c) (by simp)
    obtain ⟨pre, l, he, hpre, hl, hname⟩ := split_last htn
    rw [members, List.map_cons] at h
    unfold unpack at h
    dsimp only at h
    split at h
    · cases h
    · rw [names_file h0 htn, he] at h
      have hdir : Path.names (Path.dir (Path.join [tmp, name])) = Path.names tmp ++ pre := by
        conv_lhs => rw [hname]
        exact names_dir_join h0 hpre hl
      rw [hdir] at h
      obtain ⟨fs1, hm, h⟩ := Option.bind_eq_some_iff.1 h
      obtain ⟨fs2, hc, h⟩ := Option.bind_eq_some_iff.1 h
      obtain ⟨⟨fs3, n3⟩, hu, h⟩ := Option.map_eq_some_iff.1 h
      injection h with h1 h2
      subst h1 h2
      have hnew : ∀ f ∈ done, f.1 ≠ name := by
        intro f hf hfe
        rw [List.map_append, List.nodup_append] at hnd
        exact hnd.2.2 f.1 (List.mem_map_of_mem hf) name (by simp) hfe
      obtain ⟨hL2, hd2, hout2⟩ := laid_step hL he hnew hm hc
      obtain ⟨hL3, hd3, hout3, hn3⟩ := unpack_files h0 fl (done ++ [(name, c)]) fs2 fs3 n3
        (fun f hf => ht f (by simp [hf])) (by simpa using hnd) hL2 hd2 hu
      refine ⟨by simpa using hL3, hd3, ?_, ?_⟩
      · intro q hq
        show fs3 q = fs q
        rw [hout3 q hq]
        by_cases hqb : q <+: Path.names tmp
        · rw [hd2 q hqb, hd q hqb]
        · exact hout2 q hq hqb
      · rw [hn3]; simp; omega

/-- No file is where another needs a directory. -/
def NoClash (fl : List (Bytes × Bytes)) : Prop :=
  ∀ f ∈ fl, ∀ g ∈ fl, Path.elems f.1 <+: Path.elems g.1 → f.1 = g.1

/-- **When unpacking succeeds.** -/
theorem unpack_succeeds {io : List Bytes → Bool} (hio : ∀ p, io p = true) {tmp : Bytes} (h0 : tmp ≠ []) :
    ∀ (fl done : List (Bytes × Bytes)) (fs : FS), (∀ f ∈ fl, Tidy f.1) → NoClash (done ++ fl) →
    ((done ++ fl).map Prod.fst).Nodup → Laid fs (Path.names tmp) done →
    (∀ q, q <+: Path.names tmp → fs q = some .dir) → ∃ x, unpack io tmp fs (members fl) = some x
  | [], done, fs, _, _, _, _, _ => ⟨_, by rw [members, List.map_nil, unpack]⟩
  | (name, c) :: fl, done, fs, ht, hclash, hnd, hL, hd => by
    have htn : Tidy name := ht (name, c) (by simp)
    obtain ⟨pre, l, he, hpre, hl, hname⟩ := split_last htn
    have hnew : ∀ f ∈ done, f.1 ≠ name := by
      intro f hf hfe
      rw [List.map_append, List.nodup_append] at hnd
      exact hnd.2.2 f.1 (List.mem_map_of_mem hf) name (by simp) hfe
    have hmk : ∃ fs1, mkdirAll fs (Path.names tmp ++ pre) = some fs1 := by
      unfold mkdirAll
      rw [if_neg]
      · exact ⟨_, rfl⟩
      · rw [List.any_eq_true]
        rintro ⟨q, hq, hfile⟩
        have hq := (List.mem_inits _ _).1 hq
        have hr : ∃ r, q = Path.names tmp ++ r ∧ r <+: pre ∨ q <+: Path.names tmp := by
          rcases List.prefix_or_prefix_of_prefix hq (List.prefix_append (Path.names tmp) pre) with h | ⟨r, rfl⟩
          · exact ⟨[], Or.inr h⟩
          · exact ⟨r, Or.inl ⟨rfl, (List.prefix_append_right_inj _).1 hq⟩⟩
        unfold isFile at hfile
        obtain ⟨r, ⟨rfl, hr⟩ | hr⟩ := hr
        · cases hfs : fs (Path.names tmp ++ r) with
          | none => rw [hfs] at hfile; cases hfile
          | some e =>
            cases e with
            | dir => rw [hfs] at hfile; cases hfile
            | file c' =>
              obtain ⟨f, hf, h1, -⟩ := hL.only _ _ hfs
              refine hnew f hf (hclash f (by simp [hf]) (name, c) (by simp) ?_)
              show Path.elems f.1 <+: Path.elems name
              rw [← h1, he]
              exact hr.trans (List.prefix_append _ _)
        · rw [hd q hr] at hfile; cases hfile
    obtain ⟨fs1, hm⟩ := hmk
    have hcr : ∃ fs2, create fs1 (Path.names tmp ++ (pre ++ [l])) c = some fs2 := by
      obtain ⟨hd1, hkeep, hout⟩ := mkdirAll_some hm
      unfold create
      rw [if_pos]
      · exact ⟨_, rfl⟩
      · refine ⟨?_, ?_⟩
        · rw [← List.append_assoc, List.dropLast_concat]
          exact hd1 _ (List.prefix_refl _)
        · intro hh
          rw [hout _ (by intro h; have := h.length_le; simp at this)] at hh
          rcases (hL.dirs _).1 hh with h | ⟨f, hf, h1, h2⟩
          · simp at h
          · refine hnew f hf (hclash (name, c) (by simp) f (by simp [hf]) ?_).symm
            show Path.elems name <+: _
            rw [he]; exact h1
    obtain ⟨fs2, hc⟩ := hcr
    obtain ⟨hL2, hd2, -⟩ := laid_step hL he hnew hm hc
    obtain ⟨x, hx⟩ := unpack_succeeds hio h0 fl (done ++ [(name, c)]) fs2 (fun f hf => ht f (by simp [hf]))
      (by simpa using hclash) (by simpa using hnd) hL2 hd2
    have hdir : Path.names (Path.dir (Path.join [tmp, name])) = Path.names tmp ++ pre := by
      conv_lhs => rw [hname]
      exact names_dir_join h0 hpre hl
    refine ⟨(x.1, x.2 + c.length), ?_⟩
    rw [members, List.map_cons]
    unfold unpack
    dsimp only
    rw [if_neg (by simp [hio]), hdir, hm, Option.bind_some, names_file h0 htn, he, hc, Option.bind_some]
    change (unpack io tmp fs2 (members fl)).map _ = _
    rw [hx]
    rfl

end Quark.Sent
