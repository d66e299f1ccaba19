import Verif.Access.Lemmas
import Mathlib.Data.List.Nodup

/-! # Which page a request reaches (C165) -/

namespace Quark.Access

open Quark.Path Spec

/-! ## Where a path leads -/

theorem splitOn_eq (p : List Char) : p.splitOn '/' = elems p := by
  unfold List.splitOn
  induction p with
  | nil => rfl
  | cons c p ih =>
    rw [List.splitOnP_cons_eq_if_modifyHead, ih, elems]
    by_cases h : c = '/' <;> simp [h]

theorem foldl_follow {es acc : List (List Char)} (h : Acc true acc) (hs : ∀ e ∈ es, '/' ∉ e) :
    es.foldl follow acc = es.foldl (push true) acc := by
  induction es generalizing acc with
  | nil => rfl
  | cons e es ih =>
    have he : follow acc e = push true acc e := by
      unfold follow push
      rw [show "".toList = ([] : List Char) from rfl, show ".".toList = dot from rfl,
        show "..".toList = dotdot from rfl]
      split
      · rfl
      · split
        · cases acc with
          | nil => rfl
          | cons top rest =>
            have : top ≠ dotdot := fun ht => h.root rfl (by simp [ht])
            simp [this]
        · rfl
    simp only [List.foldl_cons]
    rw [he]
    exact ih (h.push (hs e (by simp))) (fun x hx => hs x (by simp [hx]))

theorem place_root (q : List Char) : place ('/' :: q) = names ('/' :: q) := by
  unfold place
  rw [splitOn_eq, elems_root]
  simp only [List.foldl_cons]
  rw [show follow [] [] = [] by simp [follow], foldl_follow (Acc.nil _) (slash_notMem_elems q), names_root]

theorem place_slash (p : List Char) : place (p ++ ['/']) = place p := by
  unfold place
  rw [splitOn_eq, splitOn_eq, elems_append_slash, List.foldl_append]
  simp [elems, follow]

theorem place_unrooted (p : List Char) : place ('/' :: p) = place p := by
  unfold place
  rw [splitOn_eq, splitOn_eq, elems_root]
  simp [follow]

theorem place_cleanPath (p : List Char) : place (cleanPath p) = place p := by
  have key : ∀ q, place (cleanPath ('/' :: q)) = place ('/' :: q) := by
    intro q
    rw [cleanPath_root]
    have hc : place (clean ('/' :: q)) = place ('/' :: q) := by
      rw [place_root]
      have h1 := names_clean ('/' :: q)
      rw [clean_root] at h1 ⊢
      rw [place_root, h1]
    split
    · rw [place_slash, hc]
    · exact hc
  cases p with
  | nil => rfl
  | cons c t =>
    by_cases hc : c = '/'
    · subst hc; exact key t
    · have : cleanPath (c :: t) = cleanPath ('/' :: c :: t) := by simp [cleanPath, hc]
      rw [this, key, place_unrooted]

/-! ## The longest pattern -/

theorem mem_appendSorted {es : List (List Char × Page)} {e x : List Char × Page} :
    x ∈ appendSorted es e ↔ x = e ∨ x ∈ es := by
  induction es with
  | nil => simp [appendSorted]
  | cons y ys ih =>
    rw [appendSorted]; split
    · simp
    · simp [ih]; tauto

theorem pairwise_appendSorted {es : List (List Char × Page)} {e : List Char × Page}
    (h : es.Pairwise fun a b => b.1.length ≤ a.1.length) :
    (appendSorted es e).Pairwise fun a b => b.1.length ≤ a.1.length := by
  induction es with
  | nil => simp [appendSorted]
  | cons y ys ih =>
    have h' := List.pairwise_cons.1 h
    rw [appendSorted]; split
    · rename_i hl
      refine List.pairwise_cons.2 ⟨fun x hx => ?_, h⟩
      rcases List.mem_cons.1 hx with rfl | hx
      · omega
      · have := h'.1 x hx; omega
    · rename_i hl
      refine List.pairwise_cons.2 ⟨fun x hx => ?_, ih h'.2⟩
      rcases mem_appendSorted.1 hx with rfl | hx
      · omega
      · exact h'.1 x hx

theorem sorted_aux (l : List (List Char × Page)) : ∀ acc : List (List Char × Page),
    (acc.Pairwise fun a b => b.1.length ≤ a.1.length) →
    ((l.foldl appendSorted acc).Pairwise fun a b => b.1.length ≤ a.1.length) ∧
      ∀ x, x ∈ l.foldl appendSorted acc ↔ x ∈ acc ∨ x ∈ l := by
  induction l with
  | nil => intro acc h; simpa using h
  | cons e l ih =>
    intro acc h
    obtain ⟨h1, h2⟩ := ih (appendSorted acc e) (pairwise_appendSorted h)
    refine ⟨h1, fun x => ?_⟩
    rw [List.foldl_cons, h2 x, mem_appendSorted]
    simp; tauto

theorem sorted_pairwise (t : List (List Char × Page)) :
    (sorted t).Pairwise fun a b => b.1.length ≤ a.1.length := (sorted_aux _ [] List.Pairwise.nil).1

theorem mem_sorted {t : List (List Char × Page)} {x : List Char × Page} :
    x ∈ sorted t ↔ x ∈ t ∧ x.1.getLast? = some '/' := by
  unfold sorted
  rw [(sorted_aux _ [] List.Pairwise.nil).2 x]
  simp

/-- A pattern applies to a path. -/
def Applies (e : List Char × Page) (p : List Char) : Prop := e.1 = p ∨ (e.1.getLast? = some '/' ∧ e.1 <+: p)

theorem Applies.isPrefix {e : List Char × Page} {p : List Char} (h : Applies e p) : e.1 <+: p := by
  rcases h with h | h
  · rw [h]; exact List.prefix_refl _
  · exact h.2

theorem lookup_none {t : List (List Char × Page)} {p : List Char} (h : t.lookup p = none) :
    ∀ e ∈ t, e.1 ≠ p := by
  intro e he hp
  subst hp
  have := List.lookup_eq_none_iff.1 h e he
  simp at this

theorem lookup_mem {t : List (List Char × Page)} {p : List Char} {h : Page} (hl : t.lookup p = some h) :
    (p, h) ∈ t := by
  obtain ⟨l1, l2, h1, _⟩ := List.lookup_eq_some_iff.1 hl
  rw [h1]; simp

/-- The page selected has a pattern that applies, and none that applies is longer. -/
theorem select_best {t : List (List Char × Page)} {p : List Char} {h : Page} (hs : select t p = some h) :
    ∃ e ∈ t, e.2 = h ∧ Applies e p ∧ ∀ e' ∈ t, Applies e' p → e'.1.length ≤ e.1.length := by
  unfold select at hs
  cases hl : t.lookup p with
  | some g =>
    rw [hl] at hs
    simp only [Option.some.injEq] at hs
    subst hs
    exact ⟨(p, g), lookup_mem hl, rfl, .inl rfl, fun e' _ ha => ha.isPrefix.length_le⟩
  | none =>
    rw [hl] at hs
    simp only [Option.map_eq_some_iff] at hs
    obtain ⟨e, hf, rfl⟩ := hs
    obtain ⟨hp, l1, l2, hsplit, hbefore⟩ := List.find?_eq_some_iff_append.1 hf
    have hem : e ∈ sorted t := by rw [hsplit]; simp
    refine ⟨e, (mem_sorted.1 hem).1, rfl, .inr ⟨(mem_sorted.1 hem).2, List.isPrefixOf_iff_prefix.1 hp⟩, ?_⟩
    intro e' he' ha
    rcases ha with ha | ⟨h1, h2⟩
    · exact absurd ha (lookup_none hl e' he')
    · have hm : e' ∈ sorted t := mem_sorted.2 ⟨he', h1⟩
      rw [hsplit] at hm
      have hpw := sorted_pairwise t
      rw [hsplit] at hpw
      rcases List.mem_append.1 hm with hm | hm
      · have := hbefore e' hm
        rw [List.isPrefixOf_iff_prefix.2 h2] at this
        simp at this
      · rcases List.mem_cons.1 hm with rfl | hm
        · exact Nat.le_refl _
        · exact (List.pairwise_cons.1 (List.pairwise_append.1 hpw).2.1).1 e' hm

theorem select_none {t : List (List Char × Page)} {p : List Char} :
    select t p = none ↔ ∀ e ∈ t, ¬ Applies e p := by
  unfold select
  constructor
  · intro hs e he ha
    cases hl : t.lookup p with
    | some g => rw [hl] at hs; simp at hs
    | none =>
      rw [hl] at hs
      simp only [Option.map_eq_none_iff, List.find?_eq_none] at hs
      rcases ha with ha | ⟨h1, h2⟩
      · exact lookup_none hl e he ha
      · exact hs e (mem_sorted.2 ⟨he, h1⟩) (List.isPrefixOf_iff_prefix.2 h2)
  · intro h
    cases hl : t.lookup p with
    | some g => exact absurd (.inl rfl) (h _ (lookup_mem hl))
    | none =>
      simp only [Option.map_eq_none_iff, List.find?_eq_none]
      intro e he hp
      obtain ⟨h1, h2⟩ := mem_sorted.1 he
      exact h e h1 (.inr ⟨h2, List.isPrefixOf_iff_prefix.1 hp⟩)

/-! ## The offers of the specification are what is registered -/

theorem table_offers (port : Port) : table port = (offers port).map fun x => (x.1.text.toList, x.2) := by
  cases port <;> rfl

/-- `below` for texts with a slash at the end, `exactly` for the others. -/
def Kinds (x : Offer × Page) : Prop :=
  match x.1 with
  | .below t => t.toList.getLast? = some '/'
  | .exactly t => t.toList.getLast? ≠ some '/'

instance (x : Offer × Page) : Decidable (Kinds x) := by
  unfold Kinds; cases x.1 <;> infer_instance

theorem offers_kinds (port : Port) : ∀ x ∈ offers port, Kinds x := by
  cases port <;> decide

theorem has_iff {port : Port} {x : Offer × Page} (hx : x ∈ offers port) {p : List Char} :
    Applies (x.1.text.toList, x.2) p ↔ x.1.Has p := by
  have hk := offers_kinds port x hx
  obtain ⟨o, h⟩ := x
  cases o with
  | below t =>
    simp only [Kinds] at hk
    simp only [Applies, Offer.text, Offer.Has, hk, true_and]
    constructor
    · rintro (h | h)
      · rw [← h]; exact List.prefix_refl _
      · exact h
    · exact .inr
  | exactly t =>
    simp only [Kinds] at hk
    simp only [Applies, Offer.text, Offer.Has, hk, false_and, or_false]
    exact eq_comm

/-- No two offers of a port have the same text. -/
theorem offers_distinct (port : Port) :
    ((offers port).map fun x => x.1.text.toList).Nodup := by
  cases port <;> decide

theorem select_belongs {port : Port} {p : List Char} {h : Page} :
    select (table port) p = some h ↔ Belongs port p h := by
  have fwd : ∀ g, select (table port) p = some g → Belongs port p g := by
    intro g hs
    obtain ⟨e, he, rfl, ha, hmax⟩ := select_best hs
    rw [table_offers] at he hmax
    obtain ⟨x, hx, rfl⟩ := List.mem_map.1 he
    refine ⟨x.1, hx, (has_iff hx).1 ha, fun o' h' ho' hh => ?_⟩
    have := hmax (o'.text.toList, h') (List.mem_map.2 ⟨(o', h'), ho', rfl⟩) ((has_iff (x := (o', h')) ho').2 hh)
    simpa only [String.length_toList] using this
  constructor
  · exact fwd h
  · rintro ⟨o, ho, hh, hmax⟩
    cases hs : select (table port) p with
    | none =>
      have := select_none.1 hs (o.text.toList, h) (by
        rw [table_offers]; exact List.mem_map.2 ⟨(o, h), ho, rfl⟩)
      exact absurd ((has_iff (x := (o, h)) ho).2 hh) this
    | some g =>
      obtain ⟨o', ho', hh', hmax'⟩ := fwd g hs
      have l1 := hmax o' g ho' hh'
      have l2 := hmax' o h ho hh
      have p1 := ((has_iff (x := (o, h)) ho).2 hh).isPrefix
      have p2 := ((has_iff (x := (o', g)) ho').2 hh').isPrefix
      have hl : o.text.toList.length = o'.text.toList.length := by
        simp only [String.length_toList]; omega
      have heq : o.text.toList = o'.text.toList := by
        have := List.prefix_of_prefix_length_le p1 p2 (Nat.le_of_eq hl)
        exact this.eq_of_length hl
      have hnd := offers_distinct port
      have : (o, h) = (o', g) := List.inj_on_of_nodup_map hnd ho ho' heq
      simp only [Prod.mk.injEq] at this
      rw [this.2]

theorem belongs_none {port : Port} {p : List Char} :
    select (table port) p = none ↔ ∀ h, ¬ Belongs port p h := by
  constructor
  · intro h g hg
    rw [select_belongs.2 hg] at h; simp at h
  · intro h
    cases hs : select (table port) p with
    | none => rfl
    | some g => exact absurd (select_belongs.1 hs) (h g)

theorem lookup_isSome {t : List (List Char × Page)} {p : List Char} :
    (t.lookup p).isSome = true ↔ ∃ h, (p, h) ∈ t := by
  constructor
  · intro h
    obtain ⟨g, hg⟩ := Option.isSome_iff_exists.1 h
    exact ⟨g, lookup_mem hg⟩
  · rintro ⟨g, hg⟩
    cases hl : t.lookup p with
    | some _ => rfl
    | none => exact absurd rfl (lookup_none hl _ hg)

/-- No text offered is another one with a slash, and none ends in two slashes. -/
theorem offers_slash (port : Port) : ∀ x ∈ offers port, ∀ y ∈ offers port,
    x.1.text.toList ≠ y.1.text.toList ++ ['/'] := by
  cases port <;> decide +kernel

theorem offers_double (port : Port) : ∀ x ∈ offers port, x.1.text.toList.dropLast.getLast? ≠ some '/' := by
  cases port <;> decide +kernel

theorem slashMissing_iff {port : Port} {p : List Char} :
    slashMissing (table port) p = true ↔ NeedsSlash port p := by
  unfold slashMissing NeedsSlash
  simp only [Bool.and_eq_true, Option.isNone_iff_eq_none, Bool.not_eq_true', bne_iff_ne, ne_eq]
  rw [lookup_isSome, table_offers]
  constructor
  · rintro ⟨⟨⟨_, h2⟩, g, hg⟩, _⟩
    obtain ⟨x, hx, he⟩ := List.mem_map.1 hg
    simp only [Prod.mk.injEq] at he
    exact ⟨by intro h; simp [h] at h2, x.1, x.2, hx, he.1⟩
  · rintro ⟨hp, o, h, ho, he⟩
    refine ⟨⟨⟨?_, by cases p <;> simp_all⟩, h, List.mem_map.2 ⟨(o, h), ho, by simp only [Prod.mk.injEq, and_true]; exact he⟩⟩, ?_⟩
    · cases hl : ((offers port).map fun x => (x.1.text.toList, x.2)).lookup p with
      | none => rfl
      | some g =>
        obtain ⟨y, hy, hye⟩ := List.mem_map.1 (lookup_mem hl)
        simp only [Prod.mk.injEq] at hye
        exact absurd (by rw [hye.1]; exact he) (offers_slash port (o, h) ho y hy)
    · intro hl
      have := offers_double port (o, h) ho
      simp only [he] at this
      rw [show "/".toList = ['/'] from rfl, List.dropLast_concat] at this
      exact this hl

end Quark.Access
