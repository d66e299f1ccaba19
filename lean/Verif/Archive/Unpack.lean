import Verif.Archive.Walk
import Mathlib.Data.List.Infix

/-!
# Unpacking the archive of a tree
-/

namespace Quark.Archive

/-- The path of a member on the runner's disk. -/
def pathOf (tmp : Bytes) : Member → List Bytes
  | .dir n => Path.names (Path.join [tmp, n])
  | .file n _ => Path.names (Path.join [tmp, n])

theorem foldl_push_names {r : Bool} (acc : List Bytes) {es : List Bytes} (h : ∀ e ∈ es, Path.Name e) :
    es.foldl (Path.push r) acc = es.reverse ++ acc := by
  induction es generalizing acc with
  | nil => rfl
  | cons e es ih =>
    have he := h e (by simp)
    rw [List.foldl_cons]
    have : Path.push r acc e = e :: acc := by
      unfold Path.push
      rw [if_neg (by rintro (h | h); exact he.1.1 h; exact he.1.2.1 h), if_neg he.2]
    rw [this, ih _ (fun x hx => h x (by simp [hx]))]
    simp

theorem names_join_slashed {tmp : Bytes} (ht : tmp ≠ []) {es : List Bytes} (hne : es ≠ [])
    (h : ∀ e ∈ es, Path.Name e) : Path.names (Path.join [tmp, Path.slashed es]) = Path.names tmp ++ es := by
  rw [Path.names_join ht]
  simp only [List.flatMap_cons, List.flatMap_nil, List.append_nil]
  rw [Path.elems_slashed hne (fun e he => (h e he).1.2.2), foldl_push_names _ h]
  simp

theorem names_dir_join {tmp : Bytes} (ht : tmp ≠ []) {pre : List Bytes} {n : Bytes}
    (hp : ∀ e ∈ pre, Path.Name e) (hn : Path.Name n) :
    Path.names (Path.dir (Path.join [tmp, Path.slashed (pre ++ [n])])) = Path.names tmp ++ pre := by
  have hall : ∀ e ∈ pre ++ [n], Path.Name e := by
    intro e he
    rcases List.mem_append.1 he with h | h
    · exact hp e h
    · rw [List.mem_singleton.1 h]; exact hn
  have h1 := names_join_slashed ht (by simp) hall
  rw [Path.join_cons ht] at h1 ⊢
  rw [Path.names_clean, ← List.append_assoc] at h1
  have hcl := Path.clean_names (Path.slashed [tmp, Path.slashed (pre ++ [n])])
  rw [h1] at hcl
  rw [Files.dir_clean h1]
  refine Path.names_render ?_
  unfold Path.Clean at hcl ⊢
  rw [List.reverse_append] at hcl
  exact Path.Acc.tail (by simpa using hcl)

/-- All directories up to `base` are there. -/
def Dirs (fs : FS) (base : List Bytes) : Prop := ∀ q, q <+: base → fs q = some .dir

/-- There is nothing under the names of `ns` in `base`. -/
def Free (fs : FS) (base : List Bytes) (ns : List Node) : Prop :=
  ∀ x ∈ ns, ∀ r, fs (base ++ x.name :: r) = none

/-- A disk with the tree `ns` at `base`. -/
def graft (fs : FS) (base : List Bytes) (ns : List Node) : FS := fun q =>
  if ns.any (fun x => (base ++ [x.name]).isPrefixOf q) then contents ns (q.drop base.length) else fs q

theorem contents_cons_eq (n : Node) (ns : List Node) (r : List Bytes) :
    contents (n :: ns) (n.name :: r) = contents [n] (n.name :: r) := by
  unfold contents
  simp

theorem contents_cons_ne (n : Node) (ns : List Node) (m : Bytes) (r : List Bytes) (h : n.name ≠ m) :
    contents (n :: ns) (m :: r) = contents ns (m :: r) := by
  unfold contents
  have : (n.name == m) = false := by simpa using h
  simp [this]

theorem contents_none {ns : List Node} {m : Bytes} {r : List Bytes} (h : ∀ x ∈ ns, x.name ≠ m) :
    contents ns (m :: r) = none := by
  unfold contents
  have : ns.find? (fun x => x.name == m) = none := by
    rw [List.find?_eq_none]
    intro x hx
    simpa using h x hx
  rw [this]

theorem any_prefix {ns : List Node} {base q : List Bytes} :
    ns.any (fun x => (base ++ [x.name]).isPrefixOf q) = true ↔ ∃ x ∈ ns, ∃ r, q = base ++ x.name :: r := by
  rw [List.any_eq_true]
  constructor
  · rintro ⟨x, hx, h⟩
    obtain ⟨r, rfl⟩ := List.isPrefixOf_iff_prefix.1 h
    exact ⟨x, hx, r, by simp⟩
  · rintro ⟨x, hx, r, rfl⟩
    exact ⟨x, hx, List.isPrefixOf_iff_prefix.2 ⟨r, by simp⟩⟩

theorem graft_at {fs : FS} {base : List Bytes} {ns : List Node} {m : Bytes} {r : List Bytes}
    (h : ∃ x ∈ ns, x.name = m) : graft fs base ns (base ++ m :: r) = contents ns (m :: r) := by
  unfold graft
  obtain ⟨x, hx, rfl⟩ := h
  rw [if_pos (any_prefix.2 ⟨x, hx, r, rfl⟩)]
  simp

theorem graft_else {fs : FS} {base q : List Bytes} {ns : List Node}
    (h : ∀ x ∈ ns, ∀ r, q ≠ base ++ x.name :: r) : graft fs base ns q = fs q := by
  unfold graft
  rw [if_neg]
  rw [any_prefix]
  rintro ⟨x, hx, r, hq⟩
  exact h x hx r hq

theorem graft_nil (fs : FS) (base : List Bytes) : graft fs base [] = fs := by
  funext q; exact graft_else (by simp)

theorem graft_cons {fs : FS} {base : List Bytes} {n : Node} {ns : List Node} (hd : ∀ m ∈ ns, m.name ≠ n.name) :
    graft (graft fs base [n]) base ns = graft fs base (n :: ns) := by
  funext q
  by_cases h : ∃ m r, q = base ++ m :: r ∧ ∃ x ∈ n :: ns, x.name = m
  · obtain ⟨m, r, rfl, x, hx, hm⟩ := h
    rw [graft_at ⟨x, hx, hm⟩]
    by_cases hs : ∃ y ∈ ns, y.name = m
    · rw [graft_at hs]
      obtain ⟨y, hy, rfl⟩ := hs
      rw [contents_cons_ne _ _ _ _ (hd y hy).symm]
    · rw [graft_else, graft_at]
      · rcases List.mem_cons.1 hx with rfl | hx
        · rw [← hm]; exact (contents_cons_eq x ns r).symm
        · exact absurd ⟨x, hx, hm⟩ hs
      · rcases List.mem_cons.1 hx with rfl | hx
        · exact ⟨x, by simp, hm⟩
        · exact absurd ⟨x, hx, hm⟩ hs
      · intro y hy r' he
        have := List.append_cancel_left he
        injection this with h1 _
        exact hs ⟨y, hy, h1.symm⟩
  · have hn : ∀ x ∈ n :: ns, ∀ r, q ≠ base ++ x.name :: r := fun x hx r hq => h ⟨x.name, r, hq, x, hx, rfl⟩
    rw [graft_else hn, graft_else (fun x hx => hn x (by simp [hx])), graft_else]
    intro x hx
    rw [List.mem_singleton.1 hx]
    exact hn n (by simp)

theorem prefix_ne {q base : List Bytes} {m : Bytes} {r : List Bytes} (h : q <+: base) : q ≠ base ++ m :: r := by
  intro he
  have := h.length_le
  rw [he] at this
  simp only [List.length_append, List.length_cons] at this
  omega

theorem Dirs.graft {fs : FS} {base : List Bytes} (h : Dirs fs base) (ns : List Node) :
    Dirs (Archive.graft fs base ns) base := by
  intro q hq
  rw [graft_else (fun x _ r => prefix_ne hq)]
  exact h q hq

theorem mkdirAll_dirs {fs : FS} {base : List Bytes} (h : Dirs fs base) : mkdirAll fs base = some fs := by
  unfold mkdirAll
  rw [if_neg]
  · congr 1
    funext q
    rw [if_neg]
    rintro ⟨h1, h2⟩
    rw [h q ((List.mem_inits q base).1 h1)] at h2
    exact absurd h2 (by simp)
  · rw [List.any_eq_true]
    rintro ⟨q, hq, hf⟩
    unfold isFile at hf
    rw [h q ((List.mem_inits q base).1 hq)] at hf
    simp at hf

theorem prefix_snoc {q base : List Bytes} {n : Bytes} (h : q <+: base ++ [n]) : q = base ++ [n] ∨ q <+: base := by
  rcases List.prefix_concat_iff.1 (by simpa using h) with h | h
  · left; simpa using h
  · right; exact h

theorem mkdirAll_new {fs : FS} {base : List Bytes} {n : Bytes} (h : Dirs fs base) (hf : fs (base ++ [n]) = none) :
    mkdirAll fs (base ++ [n]) = some (fs.set (base ++ [n]) .dir) := by
  unfold mkdirAll
  rw [if_neg]
  · congr 1
    funext q
    unfold FS.set
    by_cases hq : q = base ++ [n]
    · subst hq
      rw [if_pos ⟨(List.mem_inits _ _).2 (List.prefix_refl _), hf⟩, if_pos rfl]
    · rw [if_neg hq, if_neg]
      rintro ⟨h1, h2⟩
      rcases prefix_snoc ((List.mem_inits _ _).1 h1) with h3 | h3
      · exact hq h3
      · rw [h q h3] at h2; exact absurd h2 (by simp)
  · rw [List.any_eq_true]
    rintro ⟨q, hq, hfile⟩
    unfold isFile at hfile
    rcases prefix_snoc ((List.mem_inits _ _).1 hq) with h3 | h3
    · rw [h3, hf] at hfile; simp at hfile
    · rw [h q h3] at hfile; simp at hfile

theorem create_new {fs : FS} {base : List Bytes} {n c : Bytes} (h : Dirs fs base) (hf : fs (base ++ [n]) = none) :
    create fs (base ++ [n]) c = some (fs.set (base ++ [n]) (.file c)) := by
  unfold create
  rw [if_pos]
  rw [List.dropLast_concat, hf]
  exact ⟨h base (List.prefix_refl _), by simp⟩

theorem Dirs.set {fs : FS} {base : List Bytes} {n : Bytes} (h : Dirs fs base) :
    Dirs (fs.set (base ++ [n]) .dir) (base ++ [n]) := by
  intro q hq
  unfold FS.set
  rcases prefix_snoc hq with h3 | h3
  · rw [if_pos h3]
  · split_ifs
    · rfl
    · exact h q h3

theorem graft_blob {fs : FS} {base : List Bytes} {n c : Bytes} {r : Bool} (hfree : Free fs base [.blob n r c]) :
    fs.set (base ++ [n]) (.file c) = graft fs base [.blob n r c] := by
  funext q
  by_cases h : ∃ s, q = base ++ n :: s
  · obtain ⟨s, rfl⟩ := h
    rw [graft_at (m := n) ⟨_, List.mem_singleton_self _, rfl⟩]
    unfold FS.set contents
    simp only [List.find?_cons, Node.name, beq_self_eq_true]
    by_cases hs : s = []
    · subst hs; simp
    · have : base ++ n :: s ≠ base ++ [n] := by
        intro he
        exact hs (by simpa using List.append_cancel_left he)
      rw [if_neg this, if_neg hs]
      exact hfree _ (List.mem_singleton_self _) s
  · rw [graft_else]
    · unfold FS.set
      rw [if_neg]
      rintro rfl
      exact h ⟨[], rfl⟩
    · intro x hx s
      rw [List.mem_singleton.1 hx]
      exact fun he => h ⟨s, he⟩

theorem graft_other {fs : FS} {base : List Bytes} {n : Bytes} (hfree : Free fs base [.other n]) :
    fs = graft fs base [.other n] := by
  funext q
  by_cases h : ∃ s, q = base ++ n :: s
  · obtain ⟨s, rfl⟩ := h
    rw [graft_at (m := n) ⟨_, List.mem_singleton_self _, rfl⟩]
    unfold contents
    simp only [List.find?_cons, Node.name, beq_self_eq_true]
    exact hfree _ (List.mem_singleton_self _) s
  · rw [graft_else]
    intro x hx s
    rw [List.mem_singleton.1 hx]
    exact fun he => h ⟨s, he⟩

theorem graft_tree {fs : FS} {base : List Bytes} {n : Bytes} {r : Bool} {cs : List Node}
    (hfree : Free fs base [.tree n r cs]) :
    graft (fs.set (base ++ [n]) .dir) (base ++ [n]) cs = graft fs base [.tree n r cs] := by
  funext q
  by_cases h : ∃ s, q = base ++ n :: s
  · obtain ⟨s, rfl⟩ := h
    rw [graft_at (ns := [Node.tree n r cs]) (m := n) ⟨_, List.mem_singleton_self _, rfl⟩]
    have hc : contents [Node.tree n r cs] (n :: s) = contents cs s := by
      conv_lhs => unfold contents
      simp [Node.name]
    rw [hc]
    cases s with
    | nil =>
      rw [graft_else]
      · simp [FS.set, contents]
      · intro x _ s' he
        exact prefix_ne (m := x.name) (r := s') (List.prefix_refl (base ++ [n])) he
    | cons m s =>
      have he : base ++ n :: m :: s = (base ++ [n]) ++ m :: s := by simp
      rw [he]
      by_cases hm : ∃ x ∈ cs, x.name = m
      · rw [graft_at hm]
      · rw [graft_else, contents_none]
        · unfold FS.set
          rw [if_neg (by simp), ← he]
          exact hfree _ (List.mem_singleton_self _) _
        · exact fun x hx hn => hm ⟨x, hx, hn⟩
        · intro x hx s' hq
          have := List.append_cancel_left hq
          injection this with h1 _
          exact hm ⟨x, hx, h1.symm⟩
  · rw [graft_else (ns := [Node.tree n r cs]), graft_else]
    · unfold FS.set
      rw [if_neg]
      rintro rfl
      exact h ⟨[], rfl⟩
    · intro x _ s he
      exact h ⟨x.name :: s, by rw [he]; simp⟩
    · intro x hx s
      rw [List.mem_singleton.1 hx]
      exact fun he => h ⟨s, he⟩

theorem unpack_io {io : List Bytes → Bool} {tmp : Bytes} {fs : FS} {ms : List Member} {x : FS × Nat}
    (h : unpack io tmp fs ms = some x) : ∀ m ∈ ms, io (pathOf tmp m) = true := by
  induction ms generalizing fs x with
  | nil => simp
  | cons m ms ih =>
    cases m with
    | dir n =>
      unfold unpack at h
      dsimp only at h
      by_cases hio : io (Path.names (Path.join [tmp, n])) = true
      · rw [if_neg (by simp [hio])] at h
        obtain ⟨fs', _, h2⟩ := Option.bind_eq_some_iff.1 h
        intro m hm
        rcases List.mem_cons.1 hm with rfl | hm
        · exact hio
        · exact ih h2 m hm
      · rw [if_pos (by simpa using hio)] at h; exact absurd h (by simp)
    | file n c =>
      unfold unpack at h
      dsimp only at h
      by_cases hio : io (Path.names (Path.join [tmp, n])) = true
      · rw [if_neg (by simp [hio])] at h
        obtain ⟨fs', _, h2⟩ := Option.bind_eq_some_iff.1 h
        obtain ⟨fs'', _, h3⟩ := Option.bind_eq_some_iff.1 h2
        obtain ⟨y, h4, _⟩ := Option.map_eq_some_iff.1 h3
        intro m hm
        rcases List.mem_cons.1 hm with rfl | hm
        · exact hio
        · exact ih h4 m hm
      · rw [if_pos (by simpa using hio)] at h; exact absurd h (by simp)

mutual

theorem unpack_node (io : List Bytes → Bool) {tmp : Bytes} (ht : tmp ≠ []) (pre : List Bytes)
    (hp : ∀ e ∈ pre, Path.Name e) : ∀ (n : Node) (fs : FS) (ms : List Member), n.Valid →
    Dirs fs (Path.names tmp ++ pre) → Free fs (Path.names tmp ++ pre) [n] →
    (∀ m ∈ n.emit pre, io (pathOf tmp m) = true) →
    unpack io tmp fs (n.emit pre ++ ms) =
      (unpack io tmp (graft fs (Path.names tmp ++ pre) [n]) ms).map fun x => (x.1, x.2 + n.total)
  | .tree n r cs, fs, ms, hv, hd, hf, hio => by
    obtain ⟨hn, hcs⟩ := hv
    have hp' : ∀ e ∈ pre ++ [n], Path.Name e := by
      intro e he
      rcases List.mem_append.1 he with h | h
      · exact hp e h
      · rw [List.mem_singleton.1 h]; exact hn
    have hname := names_join_slashed ht (by simp) hp'
    have h0 : io (Path.names (Path.join [tmp, Path.slashed (pre ++ [n])])) = true :=
      hio (.dir _) (by rw [Node.emit]; exact List.mem_cons_self ..)
    have hfn : fs (Path.names tmp ++ pre ++ [n]) = none := by simpa [Node.name] using hf _ (List.mem_singleton_self _) []
    rw [Node.emit, List.cons_append]
    conv_lhs => unfold unpack
    dsimp only
    rw [if_neg (by simp [h0]), hname, ← List.append_assoc, mkdirAll_new hd hfn, Option.bind_some,
      unpack_list io ht (pre ++ [n]) hp' cs _ ms hcs]
    · rw [← List.append_assoc, graft_tree hf]
      simp [Node.total]
    · rw [← List.append_assoc]; exact hd.set
    · intro x hx s
      unfold FS.set
      rw [if_neg (by simp)]
      have := hf _ (List.mem_singleton_self _) (x.name :: s)
      simpa [Node.name] using this
    · intro m hm
      exact hio m (by simp [Node.emit, hm])
  | .blob n r c, fs, ms, hv, hd, hf, hio => by
    have hn : Path.Name n := hv
    have hp' : ∀ e ∈ pre ++ [n], Path.Name e := by
      intro e he
      rcases List.mem_append.1 he with h | h
      · exact hp e h
      · rw [List.mem_singleton.1 h]; exact hn
    have hname := names_join_slashed ht (by simp) hp'
    have h0 : io (Path.names (Path.join [tmp, Path.slashed (pre ++ [n])])) = true :=
      hio (.file _ c) (by rw [Node.emit]; exact List.mem_cons_self ..)
    have hfn : fs (Path.names tmp ++ pre ++ [n]) = none := by simpa [Node.name] using hf _ (List.mem_singleton_self _) []
    rw [Node.emit, List.singleton_append]
    conv_lhs => unfold unpack
    dsimp only
    rw [if_neg (by simp [h0]), names_dir_join ht hp hn, mkdirAll_dirs hd, Option.bind_some, hname, ← List.append_assoc,
      create_new hd hfn, Option.bind_some, graft_blob hf]
    rfl
  | .other n, fs, ms, hv, hd, hf, hio => by
    rw [Node.emit, List.nil_append, ← graft_other hf]
    simp [Node.total]

theorem unpack_list (io : List Bytes → Bool) {tmp : Bytes} (ht : tmp ≠ []) (pre : List Bytes)
    (hp : ∀ e ∈ pre, Path.Name e) : ∀ (ns : List Node) (fs : FS) (ms : List Member), Valid ns →
    Dirs fs (Path.names tmp ++ pre) → Free fs (Path.names tmp ++ pre) ns →
    (∀ m ∈ emit pre ns, io (pathOf tmp m) = true) →
    unpack io tmp fs (emit pre ns ++ ms) =
      (unpack io tmp (graft fs (Path.names tmp ++ pre) ns) ms).map fun x => (x.1, x.2 + total ns)
  | [], fs, ms, _, _, _, _ => by
    rw [emit, List.nil_append, graft_nil]; simp [total]
  | n :: ns, fs, ms, hv, hd, hf, hio => by
    obtain ⟨hvn, hdist, hvs⟩ := hv
    rw [emit, List.append_assoc, unpack_node io ht pre hp n fs _ hvn hd
      (fun x hx => by rw [List.mem_singleton.1 hx]; exact hf n (by simp))
      (fun m hm => hio m (by rw [emit]; exact List.mem_append_left _ hm)),
      unpack_list io ht pre hp ns _ ms hvs (hd.graft _), graft_cons hdist]
    · rw [Option.map_map]
      congr 1
      funext x
      simp only [Function.comp, total]
      congr 1
      omega
    · intro x hx s
      rw [graft_else]
      · exact hf x (by simp [hx]) s
      · intro y hy s' he
        rw [List.mem_singleton.1 hy] at he
        have := List.append_cancel_left he
        injection this with h1 _
        exact hdist x hx h1
    · exact fun m hm => hio m (by rw [emit]; exact List.mem_append_right _ hm)

end

end Quark.Archive
