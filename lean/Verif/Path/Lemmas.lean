import Verif.Path.Model
import Mathlib.Data.List.Induction

namespace Quark.Path

/-- An element a clean path may have: not empty, not `.`, without slashes. -/
def Elem (e : List Char) : Prop := e ≠ [] ∧ e ≠ dot ∧ '/' ∉ e

instance (e : List Char) : Decidable (Elem e) := by unfold Elem; infer_instance

/-- A file name: an element that is not `..` either. -/
def Name (e : List Char) : Prop := Elem e ∧ e ≠ dotdot

instance (e : List Char) : Decidable (Name e) := by unfold Name; infer_instance

theorem elems_ne_nil (p : List Char) : elems p ≠ [] := by
  induction p with
  | nil => simp [elems]
  | cons c p ih =>
    rw [elems]; split
    · simp
    · cases h : elems p with
      | nil => exact absurd h ih
      | cons a b => simp [List.modifyHead]

theorem elems_append_slash (a b : List Char) : elems (a ++ '/' :: b) = elems a ++ elems b := by
  induction a with
  | nil => simp [elems]
  | cons c a ih =>
    simp only [List.cons_append, elems]
    split
    · simp [ih]
    · rw [ih]
      cases h : elems a with
      | nil => exact absurd h (elems_ne_nil a)
      | cons x y => simp [List.modifyHead]

theorem elems_noslash {e : List Char} (h : '/' ∉ e) : elems e = [e] := by
  induction e with
  | nil => rfl
  | cons c e ih =>
    simp only [List.mem_cons, not_or] at h
    rw [elems, if_neg (fun hc => h.1 hc.symm), ih h.2]; rfl

theorem slash_notMem_elems (p : List Char) : ∀ e ∈ elems p, '/' ∉ e := by
  induction p with
  | nil => simp [elems]
  | cons c p ih =>
    rw [elems]; split
    · intro e he
      rcases List.mem_cons.1 he with rfl | he
      · simp
      · exact ih e he
    · rename_i hc
      cases h : elems p with
      | nil => exact absurd h (elems_ne_nil p)
      | cons a b =>
        rw [h] at ih
        intro e he
        simp only [List.modifyHead, List.mem_cons] at he
        rcases he with rfl | he
        · have := ih a (by simp)
          simp only [List.mem_cons, not_or]
          exact ⟨fun h => hc h.symm, this⟩
        · exact ih e (by simp [he])

theorem elems_slashed {es : List (List Char)} (hne : es ≠ []) (h : ∀ e ∈ es, '/' ∉ e) :
    elems (slashed es) = es := by
  induction es with
  | nil => exact absurd rfl hne
  | cons e es ih =>
    cases es with
    | nil => simp only [slashed]; exact elems_noslash (h e (by simp))
    | cons f es =>
      rw [slashed, elems_append_slash, elems_noslash (h e (by simp)), ih (by simp)
        (fun x hx => h x (by simp [hx]))]
      · rfl
      · simp

theorem elems_slashed_flat {es : List (List Char)} (hne : es ≠ []) :
    elems (slashed es) = es.flatMap elems := by
  induction es with
  | nil => exact absurd rfl hne
  | cons e es ih =>
    cases es with
    | nil => simp [slashed]
    | cons f es =>
      rw [slashed, elems_append_slash, ih (by simp)]
      · rfl
      · simp

/-- What the accumulator of `Clean` looks like (last element first). -/
structure Acc (rooted : Bool) (acc : List (List Char)) : Prop where
  elem : ∀ e ∈ acc, Elem e
  /-- below a `..` there are only `..` -/
  dots : ∀ e t, (e :: t) <:+ acc → e = dotdot → ∀ x ∈ t, x = dotdot
  root : rooted = true → dotdot ∉ acc

theorem Acc.nil (r : Bool) : Acc r [] where
  elem := by simp
  dots := by simp
  root := by simp

theorem Acc.tail {r : Bool} {e : List Char} {t : List (List Char)} (h : Acc r (e :: t)) : Acc r t where
  elem := fun x hx => h.elem x (by simp [hx])
  dots := fun x y hs => h.dots x y (hs.trans (List.suffix_cons _ _))
  root := fun hr hd => h.root hr (by simp [hd])

theorem Acc.push {r : Bool} {acc : List (List Char)} {e : List Char} (h : Acc r acc) (he : '/' ∉ e) :
    Acc r (push r acc e) := by
  unfold Path.push
  split
  · exact h
  · rename_i h1
    simp only [not_or] at h1
    split
    · rename_i h2
      subst h2
      cases acc with
      | nil =>
        simp only
        split
        · exact Acc.nil r
        · refine ⟨?_, ?_, ?_⟩
          · intro x hx; simp only [List.mem_singleton] at hx; subst hx; exact ⟨h1.1, h1.2, he⟩
          · intro x t hs _
            have := hs.length_le
            simp only [List.length_cons, List.length_nil] at this
            have : t = [] := by
              cases t
              · rfl
              · simp at this
            simp [this]
          · intro hr; simp_all
      | cons top rest =>
        simp only
        split
        · rename_i h3
          subst h3
          refine ⟨?_, ?_, ?_⟩
          · intro x hx
            rcases List.mem_cons.1 hx with rfl | hx
            · exact ⟨h1.1, h1.2, he⟩
            · exact h.elem x hx
          · intro x t hs hx y hy
            rcases List.suffix_cons_iff.1 hs with heq | hs
            · injection heq with _ ht
              subst ht
              rcases List.mem_cons.1 hy with rfl | hy
              · rfl
              · exact h.dots dotdot rest (List.suffix_refl _) rfl y hy
            · exact h.dots x t hs hx y hy
          · intro hr
            exact absurd (h.root hr) (by simp)
        · exact h.tail
    · rename_i h2
      refine ⟨?_, ?_, ?_⟩
      · intro x hx
        rcases List.mem_cons.1 hx with rfl | hx
        · exact ⟨h1.1, h1.2, he⟩
        · exact h.elem x hx
      · intro x t hs hx y hy
        rcases List.suffix_cons_iff.1 hs with heq | hs
        · injection heq with hxe _
          exact absurd (hxe ▸ hx) h2
        · exact h.dots x t hs hx y hy
      · intro hr hd
        rcases List.mem_cons.1 hd with hd | hd
        · exact h2 hd.symm
        · exact h.root hr hd

theorem Acc.foldl {r : Bool} {es acc : List (List Char)} (h : Acc r acc) (hes : ∀ e ∈ es, '/' ∉ e) :
    Acc r (es.foldl (Path.push r) acc) := by
  induction es generalizing acc with
  | nil => exact h
  | cons e es ih => exact ih (h.push (hes e (by simp))) (fun x hx => hes x (by simp [hx]))

/-- A list of names that a clean path may have. -/
def Clean (r : Bool) (ns : List (List Char)) : Prop := Acc r ns.reverse

theorem clean_names (p : List Char) : Clean (rooted p) (names p) := by
  unfold Clean names
  rw [List.reverse_reverse]
  exact (Acc.nil _).foldl (slash_notMem_elems p)

theorem push_elem {r : Bool} {acc : List (List Char)} {e : List Char} (h : Acc r (e :: acc)) :
    push r acc e = e :: acc := by
  have he := h.elem e (by simp)
  unfold push
  rw [if_neg (by rintro (h | h); exact he.1 h; exact he.2.1 h)]
  split
  · rename_i h2
    subst h2
    cases acc with
    | nil =>
      have : r ≠ true := fun hr => h.root hr (by simp)
      simp [this]
    | cons top rest =>
      have := h.dots dotdot (top :: rest) (List.suffix_refl _) rfl top (by simp)
      simp [this]
  · rfl

theorem foldl_push_clean {r : Bool} {ns : List (List Char)} (h : Clean r ns) :
    ns.foldl (push r) [] = ns.reverse := by
  induction ns using List.reverseRecOn with
  | nil => rfl
  | append_singleton ns e ih =>
    unfold Clean at h
    rw [List.reverse_append] at h
    simp only [List.reverse_cons, List.reverse_nil, List.nil_append, List.singleton_append] at h
    rw [List.foldl_append, ih h.tail]
    simp only [List.foldl_cons, List.foldl_nil]
    rw [push_elem h]; simp

theorem Clean.elem {r : Bool} {ns : List (List Char)} (h : Clean r ns) : ∀ e ∈ ns, Elem e :=
  fun e he => Acc.elem h e (by simp [he])

theorem rooted_slashed {ns : List (List Char)} (hne : ns ≠ []) (h : ∀ e ∈ ns, Elem e) :
    rooted (slashed ns) = false := by
  cases ns with
  | nil => exact absurd rfl hne
  | cons e es =>
    obtain ⟨h1, _, h3⟩ := h e (by simp)
    cases e with
    | nil => exact absurd rfl h1
    | cons c e =>
      have hc : c ≠ '/' := fun hc => h3 (by simp [hc])
      cases es <;> simp [slashed, rooted, hc]

theorem rooted_render {r : Bool} {ns : List (List Char)} (h : Clean r ns) : rooted (render r ns) = r := by
  unfold render
  split
  · simp_all [rooted]
  · rename_i hr
    split
    · simp_all [rooted, dot]
    · rename_i hne
      rw [rooted_slashed hne h.elem]; simp_all

theorem names_render {r : Bool} {ns : List (List Char)} (h : Clean r ns) : names (render r ns) = ns := by
  unfold names
  rw [rooted_render h]
  have hns : ∀ e ∈ ns, '/' ∉ e := fun e he => (h.elem e he).2.2
  unfold render
  split
  · have : elems ('/' :: slashed ns) = [] :: elems (slashed ns) := by simp [elems]
    rw [this]
    simp only [List.foldl_cons]
    rw [show push r [] [] = [] by simp [push]]
    by_cases hne : ns = []
    · subst hne; simp [slashed, elems, push]
    · rw [elems_slashed hne hns, foldl_push_clean h, List.reverse_reverse]
  · split
    · rename_i hne
      subst hne
      rw [elems_noslash (by simp [dot])]
      simp [push]
    · rename_i hne
      rw [elems_slashed hne hns, foldl_push_clean h, List.reverse_reverse]

theorem names_clean (p : List Char) : names (clean p) = names p := names_render (clean_names p)

theorem rooted_clean (p : List Char) : rooted (clean p) = rooted p := rooted_render (clean_names p)

theorem clean_clean (p : List Char) : clean (clean p) = clean p := by
  unfold clean; rw [names_render (clean_names p), rooted_render (clean_names p)]

/-- Two paths clean to the same text iff both are rooted or both are not, and the same names are left. -/
theorem clean_eq_iff {p q : List Char} : clean p = clean q ↔ rooted p = rooted q ∧ names p = names q := by
  constructor
  · intro h
    exact ⟨by rw [← rooted_clean p, h, rooted_clean], by rw [← names_clean p, h, names_clean]⟩
  · rintro ⟨h1, h2⟩; unfold clean; rw [h1, h2]

/-! ### Joining -/

theorem clean_ne_nil (p : List Char) : clean p ≠ [] := by
  unfold clean render
  split
  · simp
  · split
    · simp [dot]
    · rename_i _ hne
      have := (clean_names p).elem
      cases h : names p with
      | nil => exact absurd h hne
      | cons e es =>
        have he := (this e (by simp [h])).1
        cases es <;> simp [slashed, he]

theorem join_cons {d : List Char} (hd : d ≠ []) (es : List (List Char)) :
    join (d :: es) = clean (slashed (d :: es)) := by
  unfold join
  rw [List.dropWhile_cons_of_neg (by simpa using hd)]

theorem rooted_slashed_cons {d : List Char} (hd : d ≠ []) (es : List (List Char)) :
    rooted (slashed (d :: es)) = rooted d := by
  cases d with
  | nil => exact absurd rfl hd
  | cons c d => cases es <;> simp [slashed, rooted]

theorem rooted_join {d : List Char} (hd : d ≠ []) (es : List (List Char)) : rooted (join (d :: es)) = rooted d := by
  rw [join_cons hd, rooted_clean, rooted_slashed_cons hd]

theorem names_join {d : List Char} (hd : d ≠ []) (es : List (List Char)) :
    names (join (d :: es)) = ((es.flatMap elems).foldl (push (rooted d)) (names d).reverse).reverse := by
  rw [join_cons hd, names_clean]
  unfold names
  rw [rooted_slashed_cons hd, elems_slashed_flat (by simp), List.flatMap_cons, List.foldl_append,
    List.reverse_reverse]

/-- Joining a directory and a file name appends the name. -/
theorem names_join_name {d e : List Char} (hd : d ≠ []) (he : Name e) :
    names (join [d, e]) = names d ++ [e] := by
  rw [names_join hd]
  simp only [List.flatMap_cons, List.flatMap_nil, List.append_nil]
  rw [elems_noslash he.1.2.2]
  simp only [List.foldl_cons, List.foldl_nil]
  unfold push
  rw [if_neg (by rintro (h | h); exact he.1.1 h; exact he.1.2.1 h), if_neg he.2]
  simp

theorem join_eq_join_iff {d d' : List Char} {es es' : List (List Char)} (hd : d ≠ []) (hd' : d' ≠ []) :
    join (d :: es) = join (d' :: es') ↔
      rooted d = rooted d' ∧ names (join (d :: es)) = names (join (d' :: es')) := by
  constructor
  · intro h
    exact ⟨by rw [← rooted_join hd es, h, rooted_join hd'], by rw [h]⟩
  · rintro ⟨h1, h2⟩
    rw [join_cons hd, join_cons hd'] at h2 ⊢
    rw [names_clean, names_clean] at h2
    rw [clean_eq_iff]
    exact ⟨by rw [rooted_slashed_cons hd, rooted_slashed_cons hd', h1], h2⟩

/-- Names joined to a directory are told apart. -/
theorem join_name_inj {d e e' : List Char} (hd : d ≠ []) (he : Name e) (he' : Name e')
    (h : join [d, e] = join [d, e']) : e = e' := by
  have := ((join_eq_join_iff hd hd).1 h).2
  rw [names_join_name hd he, names_join_name hd he'] at this
  simpa using this

theorem filter_elems_render {r : Bool} {ns : List (List Char)} (h : Clean r ns) (hne : ns ≠ []) :
    (elems (render r ns)).filter (· ≠ []) = ns := by
  have hns : ∀ e ∈ ns, '/' ∉ e := fun e he => (h.elem e he).2.2
  have hf : ns.filter (· ≠ []) = ns := by
    rw [List.filter_eq_self]; intro e he; simpa using (h.elem e he).1
  unfold render
  split
  · have : elems ('/' :: slashed ns) = [] :: elems (slashed ns) := by simp [elems]
    rw [this, elems_slashed hne hns, List.filter_cons_of_neg (by simp), hf]
  · rw [elems_slashed hne hns, hf]

/-- The base of a directory joined with a file name is the file name. -/
theorem base_join {d e : List Char} (hd : d ≠ []) (he : Name e) : base (join [d, e]) = e := by
  have hn := names_join_name hd he
  rw [join_cons hd] at hn ⊢
  rw [names_clean] at hn
  have hne : names (slashed [d, e]) ≠ [] := by rw [hn]; simp
  unfold base
  rw [if_neg (clean_ne_nil _)]
  unfold clean
  rw [filter_elems_render (clean_names _) hne, hn]
  cases h : names d ++ [e] with
  | nil => simp at h
  | cons a b => simp only; rw [← h]; simp

theorem slashed_append_name (ns : List (List Char)) (e x : List Char) :
    slashed (ns ++ [e]) ++ x = slashed (ns ++ [e ++ x]) := by
  induction ns with
  | nil => simp [slashed]
  | cons a ns ih =>
    cases ns with
    | nil => simp [slashed]
    | cons b ns => simpa [slashed] using ih

/-- Appending to the text of a path appends to the file name. -/
theorem join_append {d e x : List Char} (hd : d ≠ []) (he : Name e) (hx : Name (e ++ x)) :
    join [d, e] ++ x = join [d, e ++ x] := by
  have h1 := names_join_name hd he
  have h2 := names_join_name hd hx
  rw [join_cons hd, names_clean] at h1 h2
  rw [join_cons hd, join_cons hd]
  unfold clean
  rw [h1, h2, rooted_slashed_cons hd, rooted_slashed_cons hd]
  unfold render
  split
  · simp [slashed_append_name]
  · rw [if_neg (by simp), if_neg (by simp), slashed_append_name]

/-! The examples of the documentation of Go's `path.Clean`, `path.Join`, `path.Base` and `path.Dir`. -/

example : (["a/c", "a//c", "a/c/.", "a/c/b/..", "/../a/c", "/../a/b/../././/c", ""].map
    fun p => String.ofList (clean p.toList)) =
    ["a/c", "a/c", "a/c", "a/c", "/a/c", "/a/c", "."] := by decide +kernel

example : ([["a", "b", "c"], ["a", "b/c"], ["a/b", "c"], ["a/b", "/c"], ["a/b", "../../../xyz"], ["", ""],
    ["a", ""], ["", "a"]].map fun es => String.ofList (join (es.map String.toList))) =
    ["a/b/c", "a/b/c", "a/b/c", "a/b/c", "../xyz", "", "a", "a"] := by decide +kernel

example : (["/a/b", "/", ""].map fun p => String.ofList (base p.toList)) = ["b", "/", "."] := by decide +kernel

example : (["/a/b/c", "a/b/c", "/a/", "a/", "/", ""].map fun p => String.ofList (dir p.toList)) =
    ["/a/b", "a/b", "/a", "a", "/", "."] := by decide +kernel

end Quark.Path
