import Verif.Access.Spec
import Verif.Path.Lemmas

/-! # Clean request paths -/

namespace Quark.Access

open Quark.Path Spec

theorem slashed_cons {e : List Char} {es : List (List Char)} (h : es ≠ []) :
    slashed (e :: es) = e ++ '/' :: slashed es := by
  cases es with
  | nil => exact absurd rfl h
  | cons f es => rfl

theorem slashed_append {l1 l2 : List (List Char)} (h1 : l1 ≠ []) (h2 : l2 ≠ []) :
    slashed (l1 ++ l2) = slashed l1 ++ '/' :: slashed l2 := by
  induction l1 with
  | nil => exact absurd rfl h1
  | cons e es ih =>
    by_cases he : es = []
    · subst he
      simp only [List.singleton_append]
      rw [slashed_cons h2]; rfl
    · rw [List.cons_append, slashed_cons (by simp [he]), slashed_cons he, ih he]
      simp

theorem slashed_elems (q : List Char) : slashed (elems q) = q := by
  induction q with
  | nil => rfl
  | cons c q ih =>
    rw [elems]
    split
    · rename_i hc
      rw [slashed_cons (elems_ne_nil q), ih, hc]; rfl
    · cases h : elems q with
      | nil => exact absurd h (elems_ne_nil q)
      | cons a b =>
        rw [h] at ih
        simp only [List.modifyHead]
        by_cases hb : b = []
        · subst hb; simpa [slashed] using ih
        · rw [slashed_cons hb] at ih ⊢
          simpa using ih

theorem elems_root (q : List Char) : elems ('/' :: q) = [] :: elems q := by simp [elems]

/-- Elements between slashes. -/
theorem interior {x q : List Char} (hx : '/' ∉ x) :
    ('/' :: x ++ ['/']) <:+: ('/' :: q) ↔ x ∈ (elems q).dropLast := by
  constructor
  · rintro ⟨a, b, h⟩
    have h1 : elems ('/' :: q) = elems a ++ (x :: elems b) := by
      rw [← h, show a ++ ('/' :: x ++ ['/']) ++ b = a ++ '/' :: (x ++ '/' :: b) by simp,
        elems_append_slash, elems_append_slash, elems_noslash hx]; rfl
    rw [elems_root] at h1
    cases ha : elems a with
    | nil => exact absurd ha (elems_ne_nil a)
    | cons y ys =>
      rw [ha] at h1
      simp only [List.cons_append, List.cons.injEq] at h1
      rw [h1.2, List.dropLast_append_of_ne_nil (by simp), List.dropLast_cons_of_ne_nil (elems_ne_nil b)]
      simp
  · intro h
    obtain ⟨l1, l2, h2⟩ := List.append_of_mem h
    have hne := elems_ne_nil q
    obtain ⟨l, hl⟩ : ∃ l, elems q = (elems q).dropLast ++ [l] :=
      ⟨_, (List.dropLast_append_getLast hne).symm⟩
    rw [h2] at hl
    have hp : '/' :: q = slashed ([] :: l1) ++ '/' :: (x ++ '/' :: slashed (l2 ++ [l])) := by
      rw [← slashed_cons (by simp), ← slashed_append (by simp) (by simp)]
      have : ([] :: l1) ++ x :: (l2 ++ [l]) = [] :: elems q := by rw [hl]; simp
      rw [this, slashed_cons hne, slashed_elems]; rfl
    exact ⟨slashed ([] :: l1), slashed (l2 ++ [l]), by rw [hp]; simp⟩

/-- The last element. -/
theorem final {x q : List Char} (hx : '/' ∉ x) : ('/' :: x) <:+ ('/' :: q) ↔ (elems q).getLast? = some x := by
  constructor
  · rintro ⟨a, h⟩
    have h1 : elems ('/' :: q) = elems a ++ [x] := by
      rw [← h, elems_append_slash, elems_noslash hx]
    rw [elems_root] at h1
    cases ha : elems a with
    | nil => exact absurd ha (elems_ne_nil a)
    | cons y ys =>
      rw [ha] at h1
      simp only [List.cons_append, List.cons.injEq] at h1
      rw [h1.2]; simp
  · intro h
    have hne := elems_ne_nil q
    have hl : elems q = (elems q).dropLast ++ [x] := by
      rw [List.getLast?_eq_some_getLast hne] at h
      have := (List.dropLast_append_getLast hne).symm
      simp only [Option.some.injEq] at h
      rw [h] at this; exact this
    have hp : '/' :: q = slashed ([] :: (elems q).dropLast) ++ '/' :: x := by
      have h3 : slashed ([] :: (elems q).dropLast) ++ '/' :: slashed [x] = '/' :: q := by
        rw [← slashed_append (by simp) (by simp), List.cons_append, ← hl, slashed_cons hne, slashed_elems]; rfl
      exact h3.symm
    exact ⟨_, hp.symm⟩

/-- What the elements of a tidy path look like. -/
def Good (es : List (List Char)) : Prop :=
  (∀ e ∈ es.dropLast, Name e) ∧ ∀ l, es.getLast? = some l → l = [] ∨ Name l

theorem name_iff {e : List Char} (h : '/' ∉ e) : Name e ↔ e ≠ [] ∧ e ≠ dot ∧ e ≠ dotdot := by
  unfold Name Elem; tauto

theorem tidy_iff_good {q : List Char} : Tidy ('/' :: q) ↔ Good (elems q) := by
  have hs : ∀ e ∈ elems q, '/' ∉ e := slash_notMem_elems q
  have hd : ∀ e ∈ (elems q).dropLast, '/' ∉ e := fun e he => hs e ((List.dropLast_sublist _).subset he)
  have i0 := interior (x := []) (q := q) (by simp)
  have i1 := interior (x := dot) (q := q) (by simp [dot])
  have i2 := interior (x := dotdot) (q := q) (by simp [dotdot])
  have f1 := final (x := dot) (q := q) (by simp [dot])
  have f2 := final (x := dotdot) (q := q) (by simp [dotdot])
  have e0 : ('/' :: ([] : List Char) ++ ['/']) = "//".toList := by rfl
  have e1 : ('/' :: dot ++ ['/']) = "/./".toList := by rfl
  have e2 : ('/' :: dotdot ++ ['/']) = "/../".toList := by rfl
  have e3 : ('/' :: dot) = "/.".toList := by rfl
  have e4 : ('/' :: dotdot) = "/..".toList := by rfl
  rw [e0] at i0; rw [e1] at i1; rw [e2] at i2; rw [e3] at f1; rw [e4] at f2
  constructor
  · intro t
    refine ⟨fun e he => (name_iff (hd e he)).2 ⟨?_, ?_, ?_⟩, fun l hl => ?_⟩
    · rintro rfl; exact t.noDouble (i0.2 he)
    · rintro rfl; exact t.noDot (i1.2 he)
    · rintro rfl; exact t.noParent (i2.2 he)
    · by_cases h0 : l = []
      · exact .inl h0
      · refine .inr ((name_iff (hs l (List.mem_of_getLast? hl))).2 ⟨h0, ?_, ?_⟩)
        · rintro rfl; exact t.noDotEnd (f1.2 hl)
        · rintro rfl; exact t.noParentEnd (f2.2 hl)
  · rintro ⟨g1, g2⟩
    refine ⟨⟨q, rfl⟩, fun h => ?_, fun h => ?_, fun h => ?_, fun h => ?_, fun h => ?_⟩
    · exact (g1 _ (i0.1 h)).1.1 rfl
    · exact (g1 _ (i1.1 h)).1.2.1 rfl
    · rcases g2 _ (f1.1 h) with h | h
      · simp [dot] at h
      · exact h.1.2.1 rfl
    · exact (g1 _ (i2.1 h)).2 rfl
    · rcases g2 _ (f2.1 h) with h | h
      · simp [dotdot] at h
      · exact h.2 rfl

theorem clean_of_names {ns : List (List Char)} (h : ∀ e ∈ ns, Name e) : Clean true ns := by
  refine ⟨fun e he => (h e (by simpa using he)).1, fun e t hs he => ?_, fun _ hd => ?_⟩
  · have : e ∈ ns := by
      have := hs.subset (List.mem_cons_self ..)
      simpa using this
    exact absurd he (h e this).2
  · exact (h _ (by simpa using hd)).2 rfl

theorem names_of_clean {ns : List (List Char)} (h : Clean true ns) : ∀ e ∈ ns, Name e :=
  fun e he => ⟨h.elem e he, fun hd => Acc.root h rfl (by simp [← hd, he])⟩

theorem push_nil (r : Bool) (acc : List (List Char)) : push r acc [] = acc := by simp [push]

theorem names_root (q : List Char) : names ('/' :: q) = ((elems q).foldl (push true) []).reverse := by
  unfold names
  rw [elems_root, show rooted ('/' :: q) = true by simp [rooted]]
  simp only [List.foldl_cons, push_nil]

theorem clean_root (q : List Char) : clean ('/' :: q) = '/' :: slashed (names ('/' :: q)) := by
  unfold clean render
  simp [rooted]

theorem slashed_ne_nil {ns : List (List Char)} (hne : ns ≠ []) (h : ∀ e ∈ ns, Name e) : slashed ns ≠ [] := by
  cases ns with
  | nil => exact absurd rfl hne
  | cons e es =>
    have := (h e (by simp)).1.1
    cases es <;> simp [slashed, this]

theorem getLast_slashed {ns : List (List Char)} {l : List Char} (hl : l ≠ []) :
    (slashed (ns ++ [l])).getLast? = l.getLast? := by
  cases ns with
  | nil => simp [slashed]
  | cons e es =>
    rw [slashed_append (by simp) (by simp)]
    obtain ⟨i, x, rfl⟩ : ∃ i x, l = i ++ [x] := ⟨_, _, (List.dropLast_append_getLast hl).symm⟩
    simp only [slashed]
    rw [List.getLast?_concat, List.getLast?_append, ← List.cons_append, List.getLast?_concat]; rfl

theorem cleanPath_root (q : List Char) : cleanPath ('/' :: q) =
    if ('/' :: q).getLast? = some '/' ∧ clean ('/' :: q) ≠ ['/'] then clean ('/' :: q) ++ ['/'] else clean ('/' :: q) := by
  simp [cleanPath]

theorem cleanPath_good {q : List Char} (h : Good (elems q)) : cleanPath ('/' :: q) = '/' :: q := by
  have hne := elems_ne_nil q
  obtain ⟨i, l, hil⟩ : ∃ i l, elems q = i ++ [l] := ⟨_, _, (List.dropLast_append_getLast hne).symm⟩
  have hq : q = slashed (i ++ [l]) := by rw [← hil, slashed_elems]
  obtain ⟨h1, h2⟩ := h
  rw [hil] at h1 h2
  simp only [List.dropLast_concat, List.getLast?_concat, Option.some.injEq, forall_eq'] at h1 h2
  have hi : i.foldl (push true) [] = i.reverse := foldl_push_clean (clean_of_names h1)
  rw [cleanPath_root]
  rcases h2 with rfl | hl
  · have hn : names ('/' :: q) = i := by
      rw [names_root, hil, List.foldl_append, hi]; simp [push_nil]
    rw [clean_root, hn]
    by_cases hi0 : i = []
    · subst hi0
      have : q = [] := by rw [hq]; rfl
      subst this; rfl
    · have hq' : q = slashed i ++ ['/'] := by
        rw [hq, slashed_append hi0 (by simp)]; simp [slashed]
      rw [if_pos ⟨by rw [hq', ← List.cons_append, List.getLast?_concat], by simpa using slashed_ne_nil hi0 h1⟩, hq']
      simp
  · have hall : ∀ e ∈ i ++ [l], Name e := by
      intro e he
      rcases List.mem_append.1 he with he | he
      · exact h1 e he
      · rw [List.mem_singleton.1 he]; exact hl
    have hn : names ('/' :: q) = i ++ [l] := by
      rw [names_root, hil, foldl_push_clean (clean_of_names hall), List.reverse_reverse]
    have hlast : ('/' :: q).getLast? ≠ some '/' := by
      have hq0 : q ≠ [] := by rw [hq]; exact slashed_ne_nil (by simp) hall
      rw [List.getLast?_cons_of_ne_nil hq0, hq, getLast_slashed hl.1.1]
      intro h
      exact hl.1.2.2 (List.mem_of_getLast? h)
    rw [if_neg (fun h => hlast h.1), clean_root, hn, ← hq]

/-- `cleanPath` always makes a tidy path. -/
theorem cleanPath_cases (p : List Char) : ∃ q, cleanPath p = '/' :: q ∧ Good (elems q) := by
  have key : ∀ q, ∃ q', cleanPath ('/' :: q) = '/' :: q' ∧ Good (elems q') := by
    intro q
    rw [cleanPath_root, clean_root]
    have hc : Clean true (names ('/' :: q)) := by
      have := clean_names ('/' :: q)
      rwa [show rooted ('/' :: q) = true by simp [rooted]] at this
    have hn := names_of_clean hc
    generalize names ('/' :: q) = ns at hn
    have hns : ∀ e ∈ ns, '/' ∉ e := fun e he => (hn e he).1.2.2
    split
    · rename_i h
      have hne : ns ≠ [] := by rintro rfl; exact h.2 rfl
      refine ⟨slashed (ns ++ [[]]), by rw [slashed_append hne (by simp)]; simp [slashed], ?_⟩
      rw [elems_slashed (by simp) (by intro e he; rcases List.mem_append.1 he with he | he; exact hns e he; simp_all)]
      exact ⟨by simpa using hn, by simp⟩
    · refine ⟨slashed ns, rfl, ?_⟩
      by_cases hne : ns = []
      · subst hne
        exact ⟨by simp [slashed, elems], by simp [slashed, elems]⟩
      · rw [elems_slashed hne hns]
        exact ⟨fun e he => hn e ((List.dropLast_sublist _).subset he), fun l hl => .inr (hn l (List.mem_of_getLast? hl))⟩
  cases p with
  | nil => exact ⟨[], rfl, by simp [elems], by simp [elems]⟩
  | cons c t =>
    by_cases hc : c = '/'
    · subst hc; exact key t
    · have : cleanPath (c :: t) = cleanPath ('/' :: c :: t) := by simp [cleanPath, hc]
      rw [this]; exact key _

theorem cleanPath_tidy (p : List Char) : Tidy (cleanPath p) := by
  obtain ⟨q, h1, h2⟩ := cleanPath_cases p
  rw [h1]; exact tidy_iff_good.2 h2

theorem cleanPath_eq_iff {p : List Char} : cleanPath p = p ↔ Tidy p := by
  constructor
  · intro h; rw [← h]; exact cleanPath_tidy p
  · intro h
    obtain ⟨q, rfl⟩ := h.rooted
    exact cleanPath_good (tidy_iff_good.1 h)

end Quark.Access
