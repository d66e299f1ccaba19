import Verif.Literal.Model
import Mathlib.Data.List.Nodup
import Mathlib.Data.List.Perm.Basic
import Mathlib.Data.List.Basic
import Mathlib.Algebra.BigOperators.Group.List.Basic
import Mathlib.Tactic.SplitIfs
import Mathlib.Tactic.FieldSimp
import Mathlib.Tactic.Ring
import Mathlib.Tactic.Linarith

namespace Quark.Literal

/-! ## Maps -/

theorem put_fresh {β : Type} {m : List (Str × β)} {k : Str} {v : β} (h : k ∉ m.map Prod.fst) :
    put m k v = m ++ [(k, v)] := by
  unfold put
  rw [if_neg]
  intro hc
  rw [List.any_eq_true] at hc
  obtain ⟨e, he, hk⟩ := hc
  exact h (List.mem_map.2 ⟨e, he, by simpa using hk⟩)

theorem put_split {β : Type} {m1 m2 : List (Str × β)} {k : Str} {w v : β}
    (h : ((m1 ++ (k, w) :: m2).map Prod.fst).Nodup) :
    put (m1 ++ (k, w) :: m2) k v = m1 ++ (k, v) :: m2 := by
  have h' := h
  rw [List.map_append, List.map_cons, List.perm_middle.nodup_iff, List.nodup_cons, List.mem_append, not_or] at h'
  have hid : ∀ m : List (Str × β), k ∉ m.map Prod.fst → m.map (fun e => if e.1 = k then (k, v) else e) = m := by
    intro m hm
    conv_rhs => rw [← List.map_id m]
    apply List.map_congr_left
    intro e he
    rw [if_neg]
    · rfl
    · rintro rfl; exact hm (List.mem_map.2 ⟨e, he, rfl⟩)
  unfold put
  rw [if_pos]
  · rw [List.map_append, List.map_cons, if_pos rfl, hid m1 h'.1.1, hid m2 h'.1.2]
  · rw [List.any_eq_true]
    exact ⟨(k, w), List.mem_append_right _ List.mem_cons_self, by simp⟩

theorem find_split {β : Type} {m1 m2 : List (Str × β)} {k : Str} {w : β}
    (h : ((m1 ++ (k, w) :: m2).map Prod.fst).Nodup) :
    (m1 ++ (k, w) :: m2).find? (fun e => e.1 == k) = some (k, w) := by
  rw [List.map_append, List.map_cons, List.perm_middle.nodup_iff, List.nodup_cons, List.mem_append, not_or] at h
  rw [List.find?_append]
  have : m1.find? (fun e => e.1 == k) = none := by
    rw [List.find?_eq_none]
    intro e he hk
    exact h.1.1 (List.mem_map.2 ⟨e, he, by simpa using hk⟩)
  rw [this]
  simp

theorem find_fresh {β : Type} {m : List (Str × β)} {k : Str} (h : k ∉ m.map Prod.fst) :
    m.find? (fun e => e.1 == k) = none := by
  rw [List.find?_eq_none]
  intro e he hk
  exact h (List.mem_map.2 ⟨e, he, by simpa using hk⟩)

/-! ## Sorting by distinct keys -/

theorem strict_of_sorted {α : Type} {key : α → Str} {l : List α} (hn : (l.map key).Nodup)
    (hs : l.Pairwise fun a b => ¬ key b < key a) : l.Pairwise fun a b => key a < key b := by
  rw [List.Nodup, List.pairwise_map] at hn
  refine (hn.and hs).imp ?_
  rintro a b ⟨h1, h2⟩
  exact lt_of_le_of_ne (le_of_not_gt h2) h1

theorem strict_nodup {α : Type} {key : α → Str} {l : List α} (h : l.Pairwise fun a b => key a < key b) :
    (l.map key).Nodup := by
  rw [List.Nodup, List.pairwise_map]
  exact h.imp fun h => ne_of_lt h

theorem strict_ext {α : Type} {key : α → Str} {l l' : List α} (h : l.Pairwise fun a b => key a < key b)
    (h' : l'.Pairwise fun a b => key a < key b) (hm : ∀ x, x ∈ l ↔ x ∈ l') : l = l' := by
  have hp : l.Perm l' := (List.perm_ext_iff_of_nodup (List.Nodup.of_map key (strict_nodup h))
    (List.Nodup.of_map key (strict_nodup h'))).2 hm
  exact List.Perm.eq_of_pairwise (le := fun a b => key a < key b)
    (fun a b _ _ h1 h2 => absurd h2 (lt_asymm h1)) h h' hp

theorem sort_strict (R : Runtime) {α : Type} (key : α → Str) {l : List α} (hn : (l.map key).Nodup) :
    (R.sort key l).Pairwise fun a b => key a < key b :=
  strict_of_sorted (((R.sort_perm key l).map key).nodup_iff.2 hn) (R.sort_sorted key l)

/-! ## Weights -/

/-- Every case is there and has a weight, and none is negative. -/
def GoodWeights (cases : List (Str × Option Case)) : Prop :=
  ∀ e ∈ cases, ∃ c w, e.2 = some c ∧ c.weight = some w ∧ 0 ≤ w

/-- The weight of a case. -/
def weightOf (e : Str × Option Case) : ℚ := (e.2.bind Case.weight).getD 0

theorem sumWeights_ok {l : List (Str × Option Case)} {t r : ℚ} (h : sumWeights t l = .ok r) :
    GoodWeights l ∧ r = t + (l.map weightOf).sum := by
  induction l generalizing t with
  | nil => cases h; exact ⟨fun e he => absurd he List.not_mem_nil, by simp⟩
  | cons e l ih =>
    obtain ⟨n, c⟩ := e
    cases c with
    | none => cases h
    | some c =>
      obtain ⟨i, o, w⟩ := c
      cases w with
      | none => cases h
      | some w =>
        simp only [sumWeights] at h
        split_ifs at h with hw
        obtain ⟨h1, h2⟩ := ih h
        refine ⟨?_, ?_⟩
        · intro e he
          rcases List.mem_cons.1 he with rfl | he'
          · exact ⟨_, w, rfl, rfl, le_of_not_gt hw⟩
          · exact h1 e he'
        · rw [h2, List.map_cons, List.sum_cons]
          simp only [weightOf, Option.bind_some, Option.getD_some]
          ring

theorem sumWeights_good {l : List (Str × Option Case)} {t : ℚ} (h : GoodWeights l) :
    sumWeights t l = .ok (t + (l.map weightOf).sum) := by
  induction l generalizing t with
  | nil => simp [sumWeights]
  | cons e l ih =>
    obtain ⟨n, c⟩ := e
    obtain ⟨c', w, h1, h2, h3⟩ := h _ List.mem_cons_self
    cases h1
    simp only [sumWeights, h2]
    rw [if_neg (not_lt.2 h3), ih fun e he => h e (List.mem_cons_of_mem _ he)]
    rw [List.map_cons, List.sum_cons]
    simp only [weightOf, Option.bind_some, h2, Option.getD_some]
    congr 1; ring

theorem GoodWeights.perm {l l' : List (Str × Option Case)} (hp : l.Perm l') : GoodWeights l ↔ GoodWeights l' :=
  ⟨fun h e he => h e (hp.mem_iff.2 he), fun h e he => h e (hp.mem_iff.1 he)⟩

theorem sum_nonneg {l : List (Str × Option Case)} (h : GoodWeights l) : 0 ≤ (l.map weightOf).sum := by
  induction l with
  | nil => simp
  | cons e l ih =>
    obtain ⟨c, w, h1, h2, h3⟩ := h e List.mem_cons_self
    rw [List.map_cons, List.sum_cons]
    have : weightOf e = w := by simp [weightOf, h1, h2]
    have := ih fun e he => h e (List.mem_cons_of_mem _ he)
    linarith

/-! ## Groups -/

/-- The settings of a case, given the total weight. -/
def toSettings (total : ℚ) (e : Str × Option Case) : CaseSettings := { name := e.1, weight := weightOf e / total }

/-- The two files of a case. -/
def caseFiles (e : Str × Option Case) : List (Str × Str) :=
  match e.2 with
  | some c => [(caseFile e.1 sIn, c.input), (caseFile e.1 sOut, c.output)]
  | none => []

structure GroupsInv (m : List (Str × List CaseSettings)) (done : List CaseSettings) : Prop where
  nodup : (m.map Prod.fst).Nodup
  nonempty : ∀ e ∈ m, e.2 ≠ []
  member : ∀ e ∈ m, ∀ c ∈ e.2, groupOf c.name = e.1
  flat : (m.flatMap Prod.snd).Perm done

theorem GroupsInv.add {m : List (Str × List CaseSettings)} {done : List CaseSettings} (h : GroupsInv m done)
    (cs : CaseSettings) :
    GroupsInv (put m (groupOf cs.name)
      (((m.find? fun e => e.1 == groupOf cs.name).map Prod.snd).getD [] ++ [cs])) (done ++ [cs]) := by
  by_cases hk : groupOf cs.name ∈ m.map Prod.fst
  · obtain ⟨⟨k, old⟩, he, hk'⟩ := List.mem_map.1 hk
    dsimp only at hk'
    subst hk'
    obtain ⟨m1, m2, rfl⟩ := List.append_of_mem he
    rw [find_split h.nodup, Option.map_some, Option.getD_some, put_split h.nodup]
    refine ⟨?_, ?_, ?_, ?_⟩
    · have := h.nodup
      simpa using this
    · intro e he'
      rcases List.mem_append.1 he' with h1 | h1
      · exact h.nonempty e (List.mem_append_left _ h1)
      · rcases List.mem_cons.1 h1 with rfl | h2
        · simp
        · exact h.nonempty e (List.mem_append_right _ (List.mem_cons_of_mem _ h2))
    · intro e he'
      rcases List.mem_append.1 he' with h1 | h1
      · exact h.member e (List.mem_append_left _ h1)
      · rcases List.mem_cons.1 h1 with rfl | h2
        · intro c hc
          rcases List.mem_append.1 hc with h3 | h3
          · exact h.member _ (List.mem_append_right _ List.mem_cons_self) c h3
          · rcases List.mem_singleton.1 h3 with rfl; rfl
        · exact h.member e (List.mem_append_right _ (List.mem_cons_of_mem _ h2))
    · have hf := h.flat
      simp only [List.flatMap_append, List.flatMap_cons] at hf ⊢
      refine List.Perm.trans ?_ (hf.append_right [cs])
      simp only [List.append_assoc]
      refine List.Perm.append_left _ (List.Perm.append_left _ ?_)
      exact List.perm_append_comm
  · rw [find_fresh hk, Option.map_none, Option.getD_none, put_fresh hk]
    refine ⟨?_, ?_, ?_, ?_⟩
    · rw [List.map_append, List.nodup_append]
      refine ⟨h.nodup, by simp, ?_⟩
      intro a ha b hb
      simp only [List.map_cons, List.map_nil, List.mem_singleton] at hb
      subst hb
      rintro rfl
      exact hk ha
    · intro e he
      rcases List.mem_append.1 he with h1 | h1
      · exact h.nonempty e h1
      · rcases List.mem_singleton.1 h1 with rfl; simp
    · intro e he
      rcases List.mem_append.1 he with h1 | h1
      · exact h.member e h1
      · rcases List.mem_singleton.1 h1 with rfl
        intro c hc
        simp only [List.nil_append, List.mem_singleton] at hc
        subst hc; rfl
    · simp only [List.flatMap_append, List.flatMap_cons, List.flatMap_nil, List.nil_append, List.append_nil]
      exact h.flat.append_right _

theorem caseFile_inj {n n' x x' : Str} (hx : x = sIn ∨ x = sOut) (hx' : x' = sIn ∨ x' = sOut)
    (h : caseFile n x = caseFile n' x') : n = n' ∧ x = x' := by
  unfold caseFile at h
  rw [List.append_assoc, List.append_assoc] at h
  have h := List.append_cancel_left h
  have hlast := congrArg List.getLast? h
  rcases hx with rfl | rfl <;> rcases hx' with rfl | rfl
  · exact ⟨List.append_cancel_right h, rfl⟩
  · simp [sIn, sOut] at hlast
  · simp [sIn, sOut] at hlast
  · exact ⟨List.append_cancel_right h, rfl⟩

theorem caseFile_head (n x : Str) : (caseFile n x).head? = some 'c' := rfl

theorem caseFiles_head {e : Str × Option Case} {f : Str × Str} (h : f ∈ caseFiles e) : f.1.head? = some 'c' := by
  obtain ⟨n, c⟩ := e
  cases c with
  | none => cases h
  | some c =>
    simp only [caseFiles, List.mem_cons, List.not_mem_nil, or_false] at h
    rcases h with rfl | rfl <;> rfl

theorem caseFiles_name {e : Str × Option Case} {f : Str × Str} (h : f ∈ caseFiles e) :
    ∃ x, (x = sIn ∨ x = sOut) ∧ f.1 = caseFile e.1 x := by
  obtain ⟨n, c⟩ := e
  cases c with
  | none => cases h
  | some c =>
    simp only [caseFiles, List.mem_cons, List.not_mem_nil, or_false] at h
    rcases h with rfl | rfl
    · exact ⟨sIn, Or.inl rfl, rfl⟩
    · exact ⟨sOut, Or.inr rfl, rfl⟩

theorem flatMap_caseFiles_nodup {l : List (Str × Option Case)} (h : (l.map Prod.fst).Nodup) :
    ((l.flatMap caseFiles).map Prod.fst).Nodup := by
  induction l with
  | nil => simp
  | cons e l ih =>
    rw [List.map_cons, List.nodup_cons] at h
    rw [List.flatMap_cons, List.map_append, List.nodup_append]
    refine ⟨?_, ih h.2, ?_⟩
    · obtain ⟨n, c⟩ := e
      cases c with
      | none => simp [caseFiles]
      | some c =>
        simp only [caseFiles, List.map_cons, List.map_nil, List.nodup_cons, List.mem_singleton, List.not_mem_nil,
          not_false_eq_true, List.nodup_nil, and_true]
        intro hc
        have := (caseFile_inj (Or.inl rfl) (Or.inr rfl) hc).2
        exact absurd this (by decide)
    · intro a ha b hb hab
      subst hab
      obtain ⟨f, hf, rfl⟩ := List.mem_map.1 ha
      obtain ⟨f', hf', hfe⟩ := List.mem_map.1 hb
      obtain ⟨e', he', hfe'⟩ := List.mem_flatMap.1 hf'
      obtain ⟨x, hx, h1⟩ := caseFiles_name hf
      obtain ⟨x', hx', h2⟩ := caseFiles_name hfe'
      rw [h1, h2] at hfe
      have := (caseFile_inj hx' hx hfe).1
      exact h.1 (List.mem_map.2 ⟨e', he', this⟩)

/-- What the loop over the cases leaves. -/
theorem addCases_spec {total : ℚ} {l : List (Str × Option Case)} {m : List (Str × List CaseSettings)}
    {files : List (Str × Str)} {done : List CaseSettings} (hg : GoodWeights l) (hn : (l.map Prod.fst).Nodup)
    (hm : GroupsInv m done)
    (hf : ∀ e ∈ l, ∀ x, x = sIn ∨ x = sOut → caseFile e.1 x ∉ files.map Prod.fst) :
    GroupsInv (addCases total (m, files) l).1 (done ++ l.map (toSettings total)) ∧
      (addCases total (m, files) l).2 = files ++ l.flatMap caseFiles := by
  induction l generalizing m files done with
  | nil => simpa [addCases] using hm
  | cons e l ih =>
    obtain ⟨n, c⟩ := e
    obtain ⟨c, w, h1, h2, h3⟩ := hg _ List.mem_cons_self
    dsimp only at h1
    subst h1
    rw [List.map_cons, List.nodup_cons] at hn
    have hin := hf _ List.mem_cons_self sIn (Or.inl rfl)
    have hout := hf _ List.mem_cons_self sOut (Or.inr rfl)
    dsimp only at hin hout
    have hfiles : put (put files (caseFile n sIn) c.input) (caseFile n sOut) c.output
        = files ++ caseFiles (n, some c) := by
      rw [put_fresh hin, put_fresh]
      · simp [caseFiles]
      · rw [List.map_append, List.mem_append, not_or]
        refine ⟨hout, ?_⟩
        simp only [List.map_cons, List.map_nil, List.mem_singleton]
        intro hc
        exact absurd (caseFile_inj (Or.inr rfl) (Or.inl rfl) hc).2 (by decide)
    have hcs : ({ name := n, weight := c.weight.getD 0 / total } : CaseSettings) = toSettings total (n, some c) := rfl
    have hstep : addCases total (m, files) ((n, some c) :: l) =
        addCases total (addCase total (m, files) n c) l := rfl
    rw [hstep]
    have hadd : addCase total (m, files) n c =
        (put m (groupOf n) (((m.find? fun e => e.1 == groupOf n).map Prod.snd).getD [] ++ [toSettings total (n, some c)]),
          files ++ caseFiles (n, some c)) := by
      rw [← hfiles]; rfl
    rw [hadd]
    have hG : GroupsInv (put m (groupOf n) (((m.find? fun e => e.1 == groupOf n).map Prod.snd).getD [] ++
        [toSettings total (n, some c)])) (done ++ [toSettings total (n, some c)]) :=
      hm.add (toSettings total (n, some c))
    obtain ⟨a1, a2⟩ := ih (m := _) (files := files ++ caseFiles (n, some c))
      (fun e he => hg e (List.mem_cons_of_mem _ he)) hn.2 hG (by
        intro e he x hx hmem
        rw [List.map_append, List.mem_append] at hmem
        rcases hmem with h4 | h4
        · exact hf e (List.mem_cons_of_mem _ he) x hx h4
        · obtain ⟨f, hf1, hf2⟩ := List.mem_map.1 h4
          obtain ⟨x', hx', h5⟩ := caseFiles_name hf1
          rw [h5] at hf2
          have := (caseFile_inj hx' hx hf2).1
          exact hn.1 (List.mem_map.2 ⟨e, he, this.symm⟩))
    refine ⟨?_, ?_⟩
    · rw [List.map_cons]
      simpa using a1
    · rw [a2, List.flatMap_cons, List.append_assoc]

/-! ## The groups, sorted -/

/-- The groups are a faithful, canonical arrangement of the given cases. -/
structure Arranged (groups : List Group) (cases : List CaseSettings) : Prop where
  sorted : groups.Pairwise fun a b => a.name < b.name
  casesSorted : ∀ g ∈ groups, g.cases.Pairwise fun a b => a.name < b.name
  nonempty : ∀ g ∈ groups, g.cases ≠ []
  member : ∀ g ∈ groups, ∀ c ∈ g.cases, groupOf c.name = g.name
  exact : (groups.flatMap Group.cases).Perm cases

theorem sortGroups_arranged (R : Runtime) {m : List (Str × List CaseSettings)} {done : List CaseSettings}
    (h : GroupsInv m done) (hn : (done.map CaseSettings.name).Nodup) : Arranged (sortGroups R m) done := by
  have hp := R.range_perm 2 m
  have hmem : ∀ g, g ∈ sortGroups R m ↔ ∃ e ∈ m, g = { name := e.1, cases := R.sort CaseSettings.name e.2 } := by
    intro g
    unfold sortGroups
    rw [(R.sort_perm _ _).mem_iff, List.mem_map]
    constructor
    · rintro ⟨e, he, rfl⟩; exact ⟨e, hp.mem_iff.1 he, rfl⟩
    · rintro ⟨e, he, rfl⟩; exact ⟨e, hp.mem_iff.2 he, rfl⟩
  have hnd : ∀ e ∈ m, (e.2.map CaseSettings.name).Nodup := by
    intro e he
    have h1 : ((m.flatMap Prod.snd).map CaseSettings.name).Nodup := (h.flat.map _).nodup_iff.2 hn
    have h2 : e.2.Sublist (m.flatMap Prod.snd) := by
      obtain ⟨m1, m2, rfl⟩ := List.append_of_mem he
      rw [List.flatMap_append, List.flatMap_cons]
      exact (List.sublist_append_left _ _).trans (List.sublist_append_right _ _)
    exact h1.sublist (h2.map _)
  refine ⟨?_, ?_, ?_, ?_, ?_⟩
  · refine sort_strict R Group.name ?_
    rw [List.map_map]
    have : (Group.name ∘ fun (e : Str × List CaseSettings) =>
        ({ name := e.1, cases := R.sort CaseSettings.name e.2 } : Group)) = Prod.fst := rfl
    rw [this]
    exact (hp.map _).nodup_iff.2 h.nodup
  · intro g hg
    obtain ⟨e, he, rfl⟩ := (hmem g).1 hg
    exact sort_strict R _ (hnd e he)
  · intro g hg
    obtain ⟨e, he, rfl⟩ := (hmem g).1 hg
    intro hc
    have hc : R.sort CaseSettings.name e.2 = [] := hc
    have h1 := R.sort_perm CaseSettings.name e.2
    rw [hc] at h1
    exact h.nonempty e he (List.nil_perm.1 h1)
  · intro g hg
    obtain ⟨e, he, rfl⟩ := (hmem g).1 hg
    intro c hc
    exact h.member e he c ((R.sort_perm _ _).mem_iff.1 hc)
  · unfold sortGroups
    refine ((R.sort_perm _ _).flatMap_right _).trans ?_
    rw [List.flatMap_map]
    refine List.Perm.trans ?_ h.flat
    refine List.Perm.trans (List.Perm.flatMap_left _ fun e _ => R.sort_perm CaseSettings.name e.2) ?_
    exact hp.flatMap_right _

/-- There is only one such arrangement. -/
theorem Arranged.unique {G G' : List Group} {l l' : List CaseSettings} (h : Arranged G l) (h' : Arranged G' l')
    (hp : l.Perm l') : G = G' := by
  have key : ∀ (A B : List Group) (a b : List CaseSettings), Arranged A a → Arranged B b → a.Perm b →
      ∀ g ∈ A, g ∈ B := by
    intro A B a b hA hB hab g hg
    have hflat : ∀ c, (∃ g ∈ A, c ∈ g.cases) ↔ ∃ g ∈ B, c ∈ g.cases := by
      intro c
      rw [← List.mem_flatMap, ← List.mem_flatMap, hA.exact.mem_iff, hB.exact.mem_iff, hab.mem_iff]
    obtain ⟨c, hc⟩ := List.exists_mem_of_ne_nil _ (hA.nonempty g hg)
    obtain ⟨g', hg', hc'⟩ := (hflat c).1 ⟨g, hg, hc⟩
    have hname : g'.name = g.name := by rw [← hA.member g hg c hc, hB.member g' hg' c hc']
    have huA : ∀ x ∈ A, x.name = g.name → x = g := fun x hx e =>
      List.inj_on_of_nodup_map (strict_nodup hA.sorted) hx hg e
    have huB : ∀ x ∈ B, x.name = g'.name → x = g' := fun x hx e =>
      List.inj_on_of_nodup_map (strict_nodup hB.sorted) hx hg' e
    have hcases : g.cases = g'.cases := by
      refine strict_ext (hA.casesSorted g hg) (hB.casesSorted g' hg') fun x => ⟨fun hx => ?_, fun hx => ?_⟩
      · obtain ⟨y, hy, hxy⟩ := (hflat x).1 ⟨g, hg, hx⟩
        have : y.name = g'.name := by rw [← hB.member y hy x hxy, hA.member g hg x hx, hname]
        rw [huB y hy this] at hxy; exact hxy
      · obtain ⟨y, hy, hxy⟩ := (hflat x).2 ⟨g', hg', hx⟩
        have : y.name = g.name := by rw [← hA.member y hy x hxy, hB.member g' hg' x hx, hname]
        rw [huA y hy this] at hxy; exact hxy
    have : g = g' := by
      cases g; cases g'; dsimp only at hname hcases; subst hname hcases; rfl
    rw [this]; exact hg'
  exact strict_ext h.sorted h'.sorted fun g => ⟨key G G' l l' h h' hp g, key G' G l' l h' h hp.symm g⟩

/-! ## The archive -/

theorem createTar_names (R : Runtime) (files : List (Str × Str)) :
    (createTar R files).map Prod.fst = R.sort id ((R.range 4 files).map Prod.fst) := by
  unfold createTar
  rw [List.map_map]
  exact List.map_id _

theorem createTar_strict (R : Runtime) {files : List (Str × Str)} (hn : (files.map Prod.fst).Nodup) :
    (createTar R files).Pairwise fun a b => a.1 < b.1 := by
  have h := sort_strict R (id : Str → Str) (l := (R.range 4 files).map Prod.fst)
    (by rw [List.map_id]; exact ((R.range_perm 4 files).map _).nodup_iff.2 hn)
  rw [← createTar_names R files] at h
  exact List.pairwise_map.1 h

theorem createTar_mem (R : Runtime) {files : List (Str × Str)} (hn : (files.map Prod.fst).Nodup) (f : Str × Str) :
    f ∈ createTar R files ↔ f ∈ files := by
  have hget : ∀ f ∈ files, ((files.find? fun e => e.1 == f.1).map Prod.snd).getD [] = f.2 := by
    intro f hf
    obtain ⟨m1, m2, rfl⟩ := List.append_of_mem hf
    obtain ⟨k, v⟩ := f
    rw [find_split hn]; rfl
  unfold createTar
  rw [List.mem_map]
  constructor
  · rintro ⟨n, hm, rfl⟩
    rw [(R.sort_perm _ _).mem_iff, List.mem_map] at hm
    obtain ⟨f, hf, rfl⟩ := hm
    have hf := (R.range_perm 4 files).mem_iff.1 hf
    rw [hget f hf]
    exact hf
  · intro hf
    refine ⟨f.1, ?_, by rw [hget f hf]⟩
    rw [(R.sort_perm _ _).mem_iff, List.mem_map]
    exact ⟨f, (R.range_perm 4 files).mem_iff.2 hf, rfl⟩

theorem createTar_unique (R R' : Runtime) {files files' : List (Str × Str)} (hp : files.Perm files')
    (hn : (files.map Prod.fst).Nodup) : createTar R files = createTar R' files' := by
  have hn' := (hp.map Prod.fst).nodup_iff.1 hn
  refine strict_ext (key := Prod.fst) (createTar_strict R hn) (createTar_strict R' hn') fun f => ?_
  rw [createTar_mem R hn, createTar_mem R' hn', hp.mem_iff]

end Quark.Literal
