import Verif.Preload.Model
import Verif.Persist.Props
import Mathlib.Tactic.Convert
import Mathlib.Tactic.Push
import Mathlib.Tactic.Tauto

/-!
# C115, C116: what is left after preloading
-/

namespace Quark.Preload

open Persist (Bytes Dir)

/-! ### Folders -/

theorem get_removeAll (f : Folder) (a x : Name) : (f.removeAll a).get x = if x = a then none else f.get x := by
  unfold Folder.get Folder.removeAll
  induction f with
  | nil => simp
  | cons e f ih =>
    obtain ⟨n, c⟩ := e
    by_cases hna : n = a
    · subst hna
      rw [List.filter_cons_of_neg (by simp), ih]
      by_cases hx : x = n
      · simp [hx]
      · simp [hx, List.lookup_cons, beq_false_of_ne hx]
    · rw [List.filter_cons_of_pos (by simp [hna]), List.lookup_cons, List.lookup_cons]
      by_cases hx : x = n
      · subst hx; simp [hna]
      · rw [beq_false_of_ne hx]; simpa using ih

theorem get_remove_ne {f : Folder} {a x : Name} (h : x ≠ a) : (f.remove a).get x = f.get x := by
  unfold Folder.remove
  split
  · rfl
  · rw [get_removeAll, if_neg h]

theorem removeAll_sublist (f : Folder) (a : Name) : (f.removeAll a).Sublist f := List.filter_sublist

theorem remove_sublist (f : Folder) (a : Name) : (f.remove a).Sublist f := by
  unfold Folder.remove
  split
  · exact List.Sublist.refl _
  · exact removeAll_sublist f a

theorem deleteIn_sublist (k : Kind) (f : Folder) (n : Name) : (deleteIn k f n).Sublist f := by
  cases k
  · exact ((removeAll_sublist _ _).trans (removeAll_sublist _ _)).trans (removeAll_sublist _ _)
  · exact (((remove_sublist _ _).trans (remove_sublist _ _)).trans (remove_sublist _ _)).trans (remove_sublist _ _)

theorem deleteIn_ne {k : Kind} {f : Folder} {n x : Name} (h0 : x ≠ n) (h1 : x ≠ n ++ dotTmp) (h2 : x ≠ n ++ dotSha1)
    (h3 : x ≠ n ++ dotLen) : (deleteIn k f n).get x = f.get x := by
  cases k
  · simp only [deleteIn, get_removeAll, if_neg h0, if_neg h1, if_neg h2]
  · simp only [deleteIn]
    rw [get_remove_ne h0, get_remove_ne h3, get_remove_ne h2, get_remove_ne h1]

/-- Distinct names. -/
def Folder.Ok (f : Folder) : Prop := (f.map Prod.fst).Nodup

theorem get_eq_some {f : Folder} (h : f.Ok) {n : Name} {x : Node} : f.get n = some x ↔ (n, x) ∈ f := by
  unfold Folder.get
  induction f with
  | nil => simp
  | cons e f ih =>
    obtain ⟨m, c⟩ := e
    have hn : m ∉ f.map Prod.fst := (List.nodup_cons.mp h).1
    have hf : Folder.Ok f := (List.nodup_cons.mp h).2
    rw [List.lookup_cons]
    by_cases hm : n = m
    · subst hm
      simp only [beq_self_eq_true, List.mem_cons, Prod.mk.injEq, true_and]
      constructor
      · intro hx; left; exact (Option.some.inj hx).symm
      · rintro (rfl | hx)
        · rfl
        · exact absurd (List.mem_map_of_mem (f := Prod.fst) hx) hn
    · rw [beq_false_of_ne hm]
      simp only [List.mem_cons, Prod.mk.injEq, hm, false_and, false_or]
      exact ih hf

theorem Folder.Ok.sublist {f g : Folder} (h : g.Ok) (hs : f.Sublist g) : f.Ok :=
  List.Nodup.sublist (hs.map Prod.fst) h

theorem get_sublist {f g : Folder} (hg : g.Ok) (hs : f.Sublist g) (n : Name) : f.get n = g.get n ∨ f.get n = none := by
  cases hf : f.get n with
  | none => exact Or.inr rfl
  | some x =>
    left
    exact ((get_eq_some hg).mpr (hs.mem ((get_eq_some (hg.sublist hs)).mp hf))).symm

/-! ### Names -/

theorem suffix_ne {a b s t : Name} (hl : s ≠ []) (h : s.getLast? ≠ t.getLast?) (ht : t ≠ []) : a ++ s ≠ b ++ t := by
  intro e
  have := congrArg List.getLast? e
  rw [List.getLast?_append_of_ne_nil _ hl, List.getLast?_append_of_ne_nil _ ht] at this
  exact h this

/-- The names of the files that an input consists of. -/
def own (k : Kind) (n : Name) : List Name :=
  match k with
  | .runner => [n, n ++ dotSha1]
  | .grader => [n, n ++ dotSha1, n ++ dotLen]

theorem own_apart {k : Kind} {n m x : Name} (hne : n ≠ m) (hr : k = .runner → '.' ∉ n ∧ m ≠ n ++ dotSha1)
    (hg : k = .grader → tarGz <:+ n ∧ tarGz <:+ m) (hx : x ∈ own k n) :
    x ≠ m ∧ x ≠ m ++ dotTmp ∧ x ≠ m ++ dotSha1 ∧ x ≠ m ++ dotLen := by
  cases k with
  | runner =>
    obtain ⟨hd, hs⟩ := hr rfl
    simp only [own, List.mem_cons, List.not_mem_nil, or_false] at hx
    rcases hx with rfl | rfl
    · refine ⟨hne, ?_, ?_, ?_⟩ <;> rintro rfl <;> simp [dotTmp, dotSha1, dotLen] at hd
    · refine ⟨fun e => hs e.symm, suffix_ne (by decide) (by decide) (by decide), fun e => hne ?_,
        suffix_ne (by decide) (by decide) (by decide)⟩
      exact List.append_cancel_right e
  | grader =>
    obtain ⟨⟨a, rfl⟩, ⟨b, rfl⟩⟩ := hg rfl
    simp only [own, List.mem_cons, List.not_mem_nil, or_false] at hx
    rcases hx with rfl | rfl | rfl
    · exact ⟨hne, suffix_ne (by decide) (by decide) (by decide), suffix_ne (by decide) (by decide) (by decide),
        suffix_ne (by decide) (by decide) (by decide)⟩
    · exact ⟨suffix_ne (by decide) (by decide) (by decide), suffix_ne (by decide) (by decide) (by decide),
        fun e => hne (List.append_cancel_right e), suffix_ne (by decide) (by decide) (by decide)⟩
    · exact ⟨suffix_ne (by decide) (by decide) (by decide), suffix_ne (by decide) (by decide) (by decide),
        suffix_ne (by decide) (by decide) (by decide), fun e => hne (List.append_cancel_right e)⟩

theorem verify_congr {env : Env} {k : Kind} {f g : Folder} {n : Name} (h : ∀ x ∈ own k n, f.get x = g.get x) :
    verify env k f n = verify env k g n := by
  cases k with
  | runner =>
    simp only [own, List.mem_cons, List.not_mem_nil, or_false, forall_eq_or_imp, forall_eq] at h
    unfold verify
    simp only [h.1, h.2]
  | grader =>
    simp only [own, List.mem_cons, List.not_mem_nil, or_false, forall_eq_or_imp, forall_eq] at h
    unfold verify Persist.verify
    simp only [h.1, h.2.1, h.2.2]

/-- What verifies is there, and of the right kind. -/
theorem verify_there {env : Env} {k : Kind} {f : Folder} {n : Name} (h : verify env k f n = true) :
    (∀ x ∈ own k n, (f.get x).isSome) ∧ (k = .runner → (∃ d, f.get n = some (.dir d)) ∧
      ∃ b, f.get (n ++ dotSha1) = some (.file b)) ∧ (k = .grader → ∃ b, f.get n = some (.file b)) := by
  cases k with
  | runner =>
    unfold verify at h
    simp only at h
    have h1 : readable (f.get (n ++ dotSha1)) ≠ none := by
      intro e
      rw [e, Persist.rverify_none (Or.inl rfl)] at h
      exact absurd h (by decide)
    have h2 : asDir (f.get n) ≠ none := by
      intro e
      rw [e, Persist.rverify_none (Or.inr rfl)] at h
      exact absurd h (by decide)
    have h1' : ∃ b, f.get (n ++ dotSha1) = some (.file b) := by
      unfold readable at h1
      split at h1
      · exact ⟨_, by assumption⟩
      · exact absurd rfl h1
    have h2' : ∃ b, f.get n = some (.dir b) := by
      unfold asDir at h2
      split at h2
      · exact ⟨_, by assumption⟩
      · exact absurd rfl h2
    refine ⟨?_, fun _ => ⟨h2', h1'⟩, by simp⟩
    simp only [own, List.mem_cons, List.not_mem_nil, or_false, forall_eq_or_imp, forall_eq]
    obtain ⟨b, hb⟩ := h1'
    obtain ⟨d, hd⟩ := h2'
    simp [hb, hd]
  | grader =>
    unfold verify Persist.verify at h
    simp only at h
    have key : ∀ o : Option Node, ∀ b, readable o = some b → o = some (.file b) := by
      intro o b ho
      unfold readable at ho
      split at ho
      · rw [Option.some.inj ho]
      · cases ho
    split at h
    · rename_i a s l ha hs hl
      refine ⟨?_, by simp, fun _ => ⟨_, key _ _ ha⟩⟩
      simp only [own, List.mem_cons, List.not_mem_nil, or_false, forall_eq_or_imp, forall_eq]
      rw [key _ _ ha, key _ _ hs, key _ _ hl]
      simp
    · cases h

theorem verify_mono {env : Env} {k : Kind} {f g : Folder} {n : Name} (hg : g.Ok) (hs : f.Sublist g)
    (h : verify env k f n = true) : verify env k g n = true := by
  rw [← h]
  refine (verify_congr fun x hx => ?_).symm
  have hx' := (verify_there h).1 x hx
  rcases get_sublist hg hs x with e | e
  · exact e
  · rw [e] at hx'; cases hx'

theorem hash_place {k : Kind} {p h : Name} {e : Name × Node} (hp : p.length = 2) (he : inputHash k p e = some h) :
    2 ≤ h.length ∧ folderOf h = p ∧ nameOf k h = e.1 := by
  cases k with
  | runner =>
    unfold inputHash at he
    simp only at he
    split at he
    · rw [← Option.some.inj he]
      refine ⟨by simp [hp], ?_, ?_⟩
      · unfold folderOf; rw [← hp, List.take_left]
      · unfold nameOf; simp only; rw [← hp, List.drop_left]
    · cases he
  | grader =>
    unfold inputHash at he
    simp only at he
    by_cases hs : tarGz <:+ e.1
    · rw [if_pos hs] at he
      rw [← Option.some.inj he]
      refine ⟨by simp [hp], ?_, ?_⟩
      · unfold folderOf; rw [← hp, List.take_left]
      · unfold nameOf; simp only
        rw [← hp, List.drop_left]
        obtain ⟨t, ht⟩ := hs
        rw [← ht]
        simp
    · rw [if_neg hs] at he; cases he

theorem hash_of {k : Kind} {h : Name} {x : Node} (hd : k = .runner → ∃ d, x = .dir d) :
    inputHash k (folderOf h) (nameOf k h, x) = some h := by
  cases k with
  | runner =>
    obtain ⟨d, rfl⟩ := hd rfl
    simp [inputHash, folderOf, nameOf]
  | grader =>
    unfold inputHash
    simp only
    rw [if_pos (by exact ⟨h.drop 2, rfl⟩)]
    simp [folderOf, nameOf]

theorem hash_inj {k : Kind} {h h' : Name} (hf : folderOf h = folderOf h') (hn : nameOf k h = nameOf k h') : h = h' := by
  have : h.drop 2 = h'.drop 2 := by
    cases k with
    | runner => exact hn
    | grader => exact List.append_cancel_right hn
  rw [← List.take_append_drop 2 h, ← List.take_append_drop 2 h', this]
  unfold folderOf at hf
  rw [hf]

theorem nameOf_grader (h : Name) : tarGz <:+ nameOf .grader h := ⟨h.drop 2, rfl⟩

/-! ### The invariant -/

/-- The names of the intermediate directories. -/
def prefixes : List Name := (List.range 256).map hex2

theorem length_prefix {p : Name} (h : p ∈ prefixes) : p.length = 2 := by
  unfold prefixes at h
  obtain ⟨i, _, rfl⟩ := List.mem_map.mp h
  rfl

section

variable (env : Env) (k : Kind) (ev : Name → Name → List Name) (w0 : World)

/-- An input that verifies to begin with and that the cache never evicts. -/
def Target (h : Name) : Prop :=
  2 ≤ h.length ∧ folderOf h ∈ prefixes ∧ verify env k (w0.tree (folderOf h)) (nameOf k h) = true ∧ ∀ q n, h ∉ ev q n

structure Inv (done : Name → Name → Prop) (w : World) : Prop where
  sub : ∀ q, (w.tree q).Sublist (w0.tree q)
  cach : ∀ h ∈ w.cached, 2 ≤ h.length ∧ folderOf h ∈ prefixes ∧
    verify env k (w.tree (folderOf h)) (nameOf k h) = true
  dn : ∀ q n x h, q ∈ prefixes → done q n → (n, x) ∈ w.tree q → inputHash k q (n, x) = some h → h ∈ w.cached
  keep : ∀ h, Target env k ev w0 h →
    (∀ x ∈ own k (nameOf k h), (w.tree (folderOf h)).get x = (w0.tree (folderOf h)).get x) ∧
    (done (folderOf h) (nameOf k h) → h ∈ w.cached)
  outside : ∀ q, q ∉ prefixes → w.tree q = w0.tree q
  rem : ∀ q c, (w.tree q).get c = (w0.tree q).get c ∨ ∃ h x, folderOf h = q ∧ (nameOf k h, x) ∈ w0.tree q ∧
    inputHash k q (nameOf k h, x) = some h ∧ ¬ Target env k ev w0 h ∧ q ∈ prefixes ∧
    c ∈ [nameOf k h, nameOf k h ++ dotTmp, nameOf k h ++ dotSha1, nameOf k h ++ dotLen]

variable {env k ev w0}
variable (hok : ∀ q, (w0.tree q).Ok)
  (hnames : k = .runner → ∀ q n, verify env k (w0.tree q) n = true → '.' ∉ n)

include hok hnames in
/-- Removing an input's files. -/
theorem Inv.del {done : Name → Name → Prop} {w : World} (I : Inv env k ev w0 done w) {h : Name} {g : Folder → Folder}
    (hp : folderOf h ∈ prefixes)
    (hent : ∃ x, (nameOf k h, x) ∈ w0.tree (folderOf h) ∧ inputHash k (folderOf h) (nameOf k h, x) = some h)
    (ht : ¬ Target env k ev w0 h) (g1 : ∀ f, (g f).Sublist f)
    (g2 : ∀ f x, x ≠ nameOf k h → x ≠ nameOf k h ++ dotTmp → x ≠ nameOf k h ++ dotSha1 → x ≠ nameOf k h ++ dotLen →
      (g f).get x = Folder.get f x)
    (g3 : (g (w.tree (folderOf h))).get (nameOf k h) = none) :
    Inv env k ev w0 done ({ w with cached := w.cached.filter (· ≠ h) }.onFolder (folderOf h) g) := by
  have hdir : k = .runner → ∃ d, (w0.tree (folderOf h)).get (nameOf k h) = some (.dir d) := by
    rintro rfl
    obtain ⟨x, hx, hi⟩ := hent
    cases x with
    | file b => cases hi
    | dir d => exact ⟨d, (get_eq_some (hok _)).mpr hx⟩
  have hsub : ∀ q, (({ w with cached := w.cached.filter (· ≠ h) }.onFolder (folderOf h) g).tree q).Sublist (w.tree q) := by
    intro q
    unfold World.onFolder
    by_cases hq : q = folderOf h
    · simp only [hq, if_true]; exact g1 _
    · simp only [hq, if_false]; exact List.Sublist.refl _
  have keepOwn : ∀ h', h' ≠ h → verify env k (w0.tree (folderOf h')) (nameOf k h') = true →
      ∀ x ∈ own k (nameOf k h'), (({ w with cached := w.cached.filter (· ≠ h) }.onFolder (folderOf h) g).tree
        (folderOf h')).get x = (w.tree (folderOf h')).get x := by
    intro h' hne hv x hx
    unfold World.onFolder
    by_cases hq : folderOf h' = folderOf h
    · simp only [hq, if_true]
      have hnn : nameOf k h' ≠ nameOf k h := fun e => hne (hash_inj hq e)
      obtain ⟨a1, a2, a3, a4⟩ := own_apart hnn (m := nameOf k h) (x := x) (k := k) (by
          intro hk
          refine ⟨hnames hk _ _ hv, fun e => ?_⟩
          obtain ⟨b, hb⟩ := ((verify_there hv).2.1 hk).2
          obtain ⟨d, hd⟩ := hdir hk
          rw [e, ← hq, hb] at hd
          cases hd) (by
          rintro rfl
          exact ⟨nameOf_grader _, nameOf_grader _⟩) hx
      exact g2 _ _ a1 a2 a3 a4
    · simp only [hq, if_false]
  refine ⟨fun q => (hsub q).trans (I.sub q), ?_, ?_, ?_, ?_, ?_⟩
  · intro h' hh'
    have hh' : h' ∈ w.cached.filter (· ≠ h) := hh'
    rw [List.mem_filter] at hh'
    obtain ⟨hm, hne⟩ := hh'
    simp only [ne_eq, decide_not, Bool.not_eq_true', decide_eq_false_iff_not] at hne
    obtain ⟨c1, c2, c3⟩ := I.cach h' hm
    refine ⟨c1, c2, ?_⟩
    rw [verify_congr (keepOwn h' hne (verify_mono (hok _) (I.sub _) c3))]
    exact c3
  · intro q n x h' hqp hd hm hi
    have hmem := I.dn q n x h' hqp hd ((hsub q).mem hm) hi
    show h' ∈ w.cached.filter (· ≠ h)
    rw [List.mem_filter]
    refine ⟨hmem, ?_⟩
    simp only [ne_eq, decide_not, Bool.not_eq_true', decide_eq_false_iff_not]
    rintro rfl
    obtain ⟨-, hq, hn⟩ := hash_place (length_prefix hqp) hi
    have hok' := (hok q).sublist ((hsub q).trans (I.sub q))
    have hget := (get_eq_some hok').mpr hm
    unfold World.onFolder at hget
    simp only [← hq, if_true] at hget
    simp only at hn
    rw [← hn, g3] at hget
    cases hget
  · intro h' hT
    obtain ⟨k1, k2⟩ := I.keep h' hT
    have hne : h' ≠ h := by rintro rfl; exact ht hT
    refine ⟨fun x hx => ?_, fun hd => ?_⟩
    · rw [keepOwn h' hne hT.2.2.1 x hx, k1 x hx]
    · show h' ∈ w.cached.filter (· ≠ h)
      rw [List.mem_filter]
      exact ⟨k2 hd, by simpa using hne⟩
  · intro q hq
    rw [← I.outside q hq]
    unfold World.onFolder
    have : q ≠ folderOf h := by rintro rfl; exact hq hp
    simp only [this, if_false]
  · intro q c
    by_cases hq : q = folderOf h
    · by_cases hc : c ∈ [nameOf k h, nameOf k h ++ dotTmp, nameOf k h ++ dotSha1, nameOf k h ++ dotLen]
      · obtain ⟨x, hx, hi⟩ := hent
        subst hq
        exact Or.inr ⟨h, x, rfl, hx, hi, ht, hp, hc⟩
      · simp only [List.mem_cons, List.not_mem_nil, or_false, not_or] at hc
        rcases I.rem q c with e | e
        · left
          rw [← e]
          unfold World.onFolder
          simp only [hq, if_true]
          exact g2 _ _ hc.1 hc.2.1 hc.2.2.1 hc.2.2.2
        · exact Or.inr e
    · rcases I.rem q c with e | e
      · left
        rw [← e]
        unfold World.onFolder
        simp only [hq, if_false]
      · exact Or.inr e

include hok hnames in
theorem Inv.evict {done : Name → Name → Prop} {w : World} (I : Inv env k ev w0 done w) {h : Name}
    (he : ∃ q n, h ∈ ev q n) : Inv env k ev w0 done (evict k w h) := by
  unfold Preload.evict
  by_cases hm : h ∈ w.cached
  · rw [if_pos hm]
    obtain ⟨c1, c2, c3⟩ := I.cach h hm
    have hv0 := verify_mono (hok _) (I.sub _) c3
    have hent : ∃ x, (nameOf k h, x) ∈ w0.tree (folderOf h) ∧
        inputHash k (folderOf h) (nameOf k h, x) = some h := by
      have hown : nameOf k h ∈ own k (nameOf k h) := by cases k <;> simp [own]
      obtain ⟨x, hx⟩ := Option.isSome_iff_exists.mp ((verify_there hv0).1 _ hown)
      refine ⟨x, (get_eq_some (hok _)).mp hx, hash_of fun hk => ?_⟩
      obtain ⟨d, hd⟩ := ((verify_there hv0).2.1 hk).1
      rw [hx] at hd
      exact ⟨d, Option.some.inj hd⟩
    refine I.del hok hnames c2 hent ?_ (fun f => deleteIn_sublist k f _) ?_ ?_
    · rintro ⟨-, -, -, hT⟩
      obtain ⟨q, n, hqn⟩ := he
      exact hT q n hqn
    · intro f x h0 h1 h2 h3
      exact deleteIn_ne h0 h1 h2 h3
    · cases k with
      | runner => simp [deleteIn, get_removeAll]
      | grader =>
        obtain ⟨b, hb⟩ := (verify_there c3).2.2 rfl
        unfold deleteIn
        simp only
        have hs : ∀ t : Name, t ≠ [] → t.getLast? ≠ tarGz.getLast? → nameOf .grader h ≠ nameOf .grader h ++ t := by
          intro t ht hl e
          have := congrArg List.length e
          rw [List.length_append] at this
          have : t.length = 0 := by omega
          exact ht (List.length_eq_zero_iff.mp this)
        have hb' : ((((w.tree (folderOf h)).remove (nameOf .grader h ++ dotTmp)).remove
            (nameOf .grader h ++ dotSha1)).remove (nameOf .grader h ++ dotLen)).get (nameOf .grader h) =
            some (.file b) := by
          rw [get_remove_ne (hs _ (by decide) (by decide)), get_remove_ne (hs _ (by decide) (by decide)),
            get_remove_ne (hs _ (by decide) (by decide)), hb]
        generalize hF : (((w.tree (folderOf h)).remove (nameOf .grader h ++ dotTmp)).remove
            (nameOf .grader h ++ dotSha1)).remove (nameOf .grader h ++ dotLen) = F at hb' ⊢
        unfold Folder.remove
        rw [hb']
        simp only
        rw [get_removeAll, if_pos rfl]
  · rw [if_neg hm]; exact I

include hok hnames in
theorem Inv.evictAll {done : Name → Name → Prop} {evs : List Name} {w : World} (I : Inv env k ev w0 done w)
    (he : ∀ h ∈ evs, ∃ q n, h ∈ ev q n) : Inv env k ev w0 done (evs.foldl (Preload.evict k) w) := by
  induction evs generalizing w with
  | nil => exact I
  | cons h evs ih =>
    exact ih (I.evict hok hnames (he h (List.mem_cons_self ..))) fun h' hh' => he h' (List.mem_cons_of_mem _ hh')

/-- One more entry is done. -/
def also (done : Name → Name → Prop) (p n : Name) : Name → Name → Prop := fun q m => done q m ∨ (q = p ∧ m = n)

theorem Inv.extend {done : Name → Name → Prop} {w : World} (I : Inv env k ev w0 done w) {p n : Name}
    (h1 : ∀ x h, (n, x) ∈ w.tree p → inputHash k p (n, x) = some h → h ∈ w.cached)
    (h2 : ∀ h, Target env k ev w0 h → folderOf h = p → nameOf k h = n → h ∈ w.cached) :
    Inv env k ev w0 (also done p n) w := by
  refine ⟨I.sub, I.cach, ?_, ?_, I.outside, I.rem⟩
  · rintro q m x h hq (hd | ⟨rfl, rfl⟩) hm hi
    · exact I.dn q m x h hq hd hm hi
    · exact h1 x h hm hi
  · intro h hT
    refine ⟨(I.keep h hT).1, ?_⟩
    rintro (hd | ⟨e1, e2⟩)
    · exact (I.keep h hT).2 hd
    · exact h2 h hT e1 e2

include hok in
theorem Target.entry {h p : Name} {e : Name × Node} (hT : Target env k ev w0 h) (he : e ∈ w0.tree p)
    (hf : folderOf h = p) (hn : nameOf k h = e.1) : inputHash k p e = some h := by
  obtain ⟨n, x⟩ := e
  subst hf
  simp only at hn
  subst hn
  refine hash_of fun hk => ?_
  obtain ⟨d, hd⟩ := ((verify_there hT.2.2.1).2.1 hk).1
  rw [(get_eq_some (hok _)).mpr he] at hd
  exact ⟨d, Option.some.inj hd⟩

include hok hnames in
theorem Inv.visit {done : Name → Name → Prop} {w : World} (I : Inv env k ev w0 done w) {p : Name} {e : Name × Node}
    (hp : p ∈ prefixes) (he : e ∈ w0.tree p) :
    Inv env k ev w0 (also done p e.1) (visit env k w p e (ev p e.1)) := by
  have hsame : ∀ x, (e.1, x) ∈ w.tree p → (e.1, x) = e := by
    intro x hx
    have h1 := (get_eq_some (hok p)).mpr ((I.sub p).mem hx)
    have h2 := (get_eq_some (hok p) (n := e.1) (x := e.2)).mpr he
    rw [h1] at h2
    rw [Option.some.inj h2]
  unfold Preload.visit
  cases hi : inputHash k p e with
  | none =>
    refine I.extend (fun x h hm hx => ?_) (fun h hT hf hn => ?_)
    · rw [hsame x hm, hi] at hx; cases hx
    · rw [hT.entry hok he hf hn] at hi; cases hi
  | some h =>
    obtain ⟨hl, hf, hn⟩ := hash_place (length_prefix hp) hi
    have finish : ∀ w' : World, Inv env k ev w0 done w' → (∀ q, (w'.tree q).Sublist (w.tree q)) → h ∈ w'.cached →
        Inv env k ev w0 (also done p e.1) ((ev p e.1).foldl (Preload.evict k) w') := by
      intro w' I' hs hmem
      refine Inv.evictAll hok hnames (I'.extend (fun x h' hm hx => ?_) (fun h' hT hf' hn' => ?_))
        (fun h' hh' => ⟨_, _, hh'⟩)
      · rw [hsame x ((hs p).mem hm), hi] at hx
        rwa [← Option.some.inj hx]
      · rw [hT.entry hok he hf' hn'] at hi
        rwa [Option.some.inj hi]
    simp only
    unfold addCached
    by_cases hc : h ∈ w.cached
    · rw [if_pos hc]
      exact finish w I (fun _ => List.Sublist.refl _) hc
    · rw [if_neg hc]
      by_cases hv : verify env k (w.tree (folderOf h)) (nameOf k h) = true
      · rw [if_pos hv]
        refine finish _ ⟨I.sub, ?_, ?_, ?_, I.outside, I.rem⟩ (fun _ => List.Sublist.refl _) (List.mem_cons_self ..)
        · intro h' hh'
          rcases List.mem_cons.mp hh' with rfl | hh'
          · exact ⟨hl, hf ▸ hp, hv⟩
          · exact I.cach h' hh'
        · intro q n x h' hq hd hm hx
          exact List.mem_cons_of_mem _ (I.dn q n x h' hq hd hm hx)
        · intro h' hT
          exact ⟨(I.keep h' hT).1, fun hd => List.mem_cons_of_mem _ ((I.keep h' hT).2 hd)⟩
      · rw [if_neg hv]
        have hnT : ¬ Target env k ev w0 h := fun hT => hv (by
          rw [verify_congr (I.keep h hT).1]; exact hT.2.2.1)
        have hw : (delete k w h).onFolder p (·.removeAll e.1) =
            { w with cached := w.cached.filter (· ≠ h) }.onFolder (folderOf h)
              (fun f => (deleteIn k f (nameOf k h)).removeAll (nameOf k h)) := by
          unfold delete World.onFolder
          have h1 : w.cached.filter (· ≠ h) = w.cached := by
            rw [List.filter_eq_self]
            intro a ha
            simp only [ne_eq, decide_not, Bool.not_eq_true', decide_eq_false_iff_not]
            rintro rfl
            exact hc ha
          simp only [h1, hf, hn]
          congr 1
          funext q
          by_cases hq : q = p <;> simp [hq]
        simp only
        rw [hw]
        have I' := I.del (h := h) (g := fun f => (deleteIn k f (nameOf k h)).removeAll (nameOf k h)) hok hnames
          (hf ▸ hp) ⟨e.2, by rw [hf, hn]; exact ⟨he, hi⟩⟩
          hnT (fun f => (removeAll_sublist _ _).trans (deleteIn_sublist k f _))
          (fun f x h0 h1 h2 h3 => by rw [get_removeAll, if_neg h0, deleteIn_ne h0 h1 h2 h3])
          (by rw [get_removeAll, if_pos rfl])
        refine I'.extend (fun x h' hm hx => ?_) (fun h' hT hf' hn' => ?_)
        · exfalso
          have hg := (get_eq_some ((hok p).sublist (I'.sub p))).mpr hm
          unfold World.onFolder at hg
          simp only [hf, if_true] at hg
          rw [hn, get_removeAll, if_pos rfl] at hg
          cases hg
        · rw [hT.entry hok he hf' hn'] at hi
          rw [Option.some.inj hi] at hT
          exact absurd hT hnT

include hok hnames in
theorem Inv.entries {p : Name} (hp : p ∈ prefixes) {es : List (Name × Node)} {done : Name → Name → Prop} {w : World}
    (I : Inv env k ev w0 done w) (hes : ∀ e ∈ es, e ∈ w0.tree p) :
    Inv env k ev w0 (fun q n => done q n ∨ (q = p ∧ n ∈ es.map Prod.fst)) (preloadEntries env k ev p w es) := by
  induction es generalizing done w with
  | nil =>
    simp only [List.map_nil, List.not_mem_nil, and_false, or_false]
    exact I
  | cons e es ih =>
    have := ih (I.visit hok hnames hp (hes e (List.mem_cons_self ..))) fun e' he' => hes e' (List.mem_cons_of_mem _ he')
    unfold preloadEntries
    convert this using 3 with q n
    unfold also
    simp only [List.map_cons, List.mem_cons]
    constructor
    · rintro (h | ⟨h, rfl | h'⟩)
      · exact Or.inl (Or.inl h)
      · exact Or.inl (Or.inr ⟨h, rfl⟩)
      · exact Or.inr ⟨h, h'⟩
    · rintro ((h | ⟨h, h'⟩) | ⟨h, h'⟩)
      · exact Or.inl h
      · exact Or.inr ⟨h, Or.inl h'⟩
      · exact Or.inr ⟨h, Or.inr h'⟩

theorem evict_sublist (k : Kind) (w : World) (h q : Name) : ((evict k w h).tree q).Sublist (w.tree q) := by
  unfold evict
  by_cases hm : h ∈ w.cached
  · rw [if_pos hm]
    unfold delete World.onFolder
    by_cases hq : q = folderOf h
    · simp only [hq, if_true]; exact deleteIn_sublist k _ _
    · simp only [hq, if_false]; exact List.Sublist.refl _
  · rw [if_neg hm]

theorem evictAll_sublist (k : Kind) (evs : List Name) (w : World) (q : Name) :
    ((evs.foldl (evict k) w).tree q).Sublist (w.tree q) := by
  induction evs generalizing w with
  | nil => exact List.Sublist.refl _
  | cons h evs ih => exact (ih _).trans (evict_sublist k w h q)

theorem visit_sublist (env : Env) (k : Kind) (w : World) (p : Name) (e : Name × Node) (evs : List Name) (q : Name) :
    ((visit env k w p e evs).tree q).Sublist (w.tree q) := by
  unfold visit
  split
  · exact List.Sublist.refl _
  · unfold addCached
    rename_i h _
    by_cases hm : h ∈ w.cached
    · rw [if_pos hm]; exact evictAll_sublist k evs w q
    · rw [if_neg hm]
      by_cases hv : verify env k (w.tree (folderOf h)) (nameOf k h) = true
      · rw [if_pos hv]; exact evictAll_sublist k evs _ q
      · rw [if_neg hv]
        simp only
        unfold delete World.onFolder
        simp only
        split
        · refine (removeAll_sublist _ _).trans ?_
          split
          · exact deleteIn_sublist k _ _
          · exact List.Sublist.refl _
        · split
          · exact deleteIn_sublist k _ _
          · exact List.Sublist.refl _

theorem entries_sublist (env : Env) (k : Kind) (ev : Name → Name → List Name) (p : Name) (es : List (Name × Node))
    (w : World) (q : Name) : ((preloadEntries env k ev p w es).tree q).Sublist (w.tree q) := by
  induction es generalizing w with
  | nil => exact List.Sublist.refl _
  | cons e es ih => exact (ih _).trans (visit_sublist env k w p e _ q)

include hok hnames in
theorem Inv.dirs {ps qs : List Name} (hps : ∀ p ∈ ps, p ∈ prefixes) {w : World}
    (I : Inv env k ev w0 (fun q _ => q ∈ qs) w) :
    Inv env k ev w0 (fun q _ => q ∈ qs ∨ q ∈ ps) (preloadDirs env k ev w ps) := by
  induction ps generalizing qs w with
  | nil =>
    simp only [List.not_mem_nil, or_false]
    exact I
  | cons p ps ih =>
    unfold preloadDirs
    have hp := hps p (List.mem_cons_self ..)
    have J := I.entries hok hnames hp (es := w.tree p) (fun e he => (I.sub p).mem he)
    have J' : Inv env k ev w0 (fun q _ => q ∈ p :: qs) (preloadEntries env k ev p w (w.tree p)) := by
      refine ⟨J.sub, J.cach, ?_, ?_, J.outside, J.rem⟩
      · intro q n x h hq hd hm hi
        refine J.dn q n x h hq ?_ hm hi
        rcases List.mem_cons.mp hd with rfl | hd
        · refine Or.inr ⟨rfl, ?_⟩
          exact List.mem_map_of_mem (f := Prod.fst) ((entries_sublist env k ev q _ w q).mem hm)
        · exact Or.inl hd
      · intro h hT
        refine ⟨(J.keep h hT).1, fun hd => (J.keep h hT).2 ?_⟩
        rcases List.mem_cons.mp hd with rfl | hd
        · refine Or.inr ⟨rfl, ?_⟩
          have hown : nameOf k h ∈ own k (nameOf k h) := by cases k <;> simp [own]
          have h1 := (I.keep h hT).1 _ hown
          have h2 := (verify_there hT.2.2.1).1 _ hown
          rw [← h1] at h2
          obtain ⟨x, hx⟩ := Option.isSome_iff_exists.mp h2
          exact List.mem_map_of_mem (f := Prod.fst)
            ((get_eq_some ((hok _).sublist (I.sub _))).mp hx)
        · exact Or.inl hd
    have K := ih (fun p' hp' => hps p' (List.mem_cons_of_mem _ hp')) J'
    convert K using 3 with q n
    simp only [List.mem_cons]
    tauto

include hok hnames in
theorem Inv.final (hc : w0.cached = []) :
    Inv env k ev w0 (fun q _ => q ∈ prefixes) (preload env k ev w0) := by
  have I0 : Inv env k ev w0 (fun q _ => q ∈ ([] : List Name)) w0 := by
    refine ⟨fun _ => List.Sublist.refl _, ?_, ?_, ?_, fun _ _ => rfl, fun _ _ => Or.inl rfl⟩
    · rw [hc]; simp
    · intro q n x h _ hd; cases hd
    · intro h _; exact ⟨fun _ _ => rfl, fun hd => by cases hd⟩
  have := I0.dirs hok hnames (ps := prefixes) (fun _ h => h)
  simp only [List.not_mem_nil, false_or] at this
  exact this

end

/-! ### C115 -/

/-- An entry of an intermediate directory that stands for an input: for a runner a directory, for the grader a name
that ends in `.tar.gz`. -/
def IsInput (k : Kind) (n : Name) (x : Node) : Prop :=
  match k with
  | .runner => ∃ d, x = .dir d
  | .grader => ∃ stem, n = stem ++ ['.', 't', 'a', 'r', '.', 'g', 'z']

/-- The hash of the input that entry `n` of directory `p` stands for. -/
def HashOf (k : Kind) (p n h : Name) : Prop :=
  match k with
  | .runner => h = p ++ n
  | .grader => ∃ stem, n = stem ++ ['.', 't', 'a', 'r', '.', 'g', 'z'] ∧ h = p ++ stem

/-- The names of the 256 intermediate directories, `00` to `ff`. -/
def Prefix (p : Name) : Prop :=
  ∃ a b, p = [a, b] ∧ a ∈ ['0','1','2','3','4','5','6','7','8','9','a','b','c','d','e','f'] ∧
    b ∈ ['0','1','2','3','4','5','6','7','8','9','a','b','c','d','e','f']

theorem mem_prefixes (p : Name) : p ∈ prefixes ↔ Prefix p := by
  constructor
  · intro h
    unfold prefixes at h
    obtain ⟨i, hi, rfl⟩ := List.mem_map.mp h
    have hi : i < 256 := List.mem_range.mp hi
    have hd : ∀ j, j < 16 → hexDigit j ∈ ['0','1','2','3','4','5','6','7','8','9','a','b','c','d','e','f'] := by
      decide
    exact ⟨_, _, rfl, hd _ (by omega), hd _ (by omega)⟩
  · rintro ⟨a, b, rfl, ha, hb⟩
    have hd : ∀ c ∈ ['0','1','2','3','4','5','6','7','8','9','a','b','c','d','e','f'], ∃ j, j < 16 ∧ hexDigit j = c := by
      decide
    obtain ⟨i, hi, rfl⟩ := hd a ha
    obtain ⟨j, hj, rfl⟩ := hd b hb
    unfold prefixes
    refine List.mem_map.mpr ⟨16 * i + j, List.mem_range.mpr (by omega), ?_⟩
    unfold hex2
    rw [show (16 * i + j) / 16 = i by omega, show (16 * i + j) % 16 = j by omega]

theorem inputHash_iff (k : Kind) (p n h : Name) (x : Node) :
    inputHash k p (n, x) = some h ↔ IsInput k n x ∧ HashOf k p n h := by
  cases k with
  | runner =>
    unfold inputHash IsInput HashOf
    cases x with
    | file b => simp
    | dir d => simp [eq_comm]
  | grader =>
    unfold inputHash IsInput HashOf
    simp only
    constructor
    · intro hi
      by_cases hs : tarGz <:+ n
      · rw [if_pos hs] at hi
        obtain ⟨t, rfl⟩ := hs
        refine ⟨⟨t, rfl⟩, t, rfl, ?_⟩
        rw [← Option.some.inj hi]
        simp
      · rw [if_neg hs] at hi; cases hi
    · rintro ⟨-, t, rfl, rfl⟩
      rw [if_pos ⟨t, rfl⟩]
      simp [tarGz]

/-- The files of an input, next to one another: for a runner the directory and its list of hashes, for the grader the
archive, its hash and its length. -/
def filesOf (k : Kind) (n : Name) : List Name :=
  match k with
  | .runner => [n, n ++ ['.', 's', 'h', 'a', '1']]
  | .grader => [n, n ++ ['.', 's', 'h', 'a', '1'], n ++ ['.', 'l', 'e', 'n']]

/-- A cache directory as it is found: no two entries of a directory have the same name, and, for a runner, inputs
that verify have names without a dot (their names are made of hexadecimal digits). -/
structure Found (env : Env) (k : Kind) (w : World) : Prop where
  names : ∀ q, ((w.tree q).map Prod.fst).Nodup
  noDot : k = .runner → ∀ q n, verify env k (w.tree q) n = true → '.' ∉ n
  /-- the process has just started -/
  empty : w.cached = []

theorem hash_parts {k : Kind} {p n h : Name} {x : Node} (hp : Prefix p) (hi : IsInput k n x) (hh : HashOf k p n h) :
    2 ≤ h.length ∧ folderOf h = p ∧ nameOf k h = n :=
  hash_place (e := (n, x)) (length_prefix ((mem_prefixes p).mpr hp)) ((inputHash_iff k p n h x).mpr ⟨hi, hh⟩)

/-- C115: an input that verifies and that the cache does not evict is in the cache afterwards, and all its files are
as before. -/
theorem C115_kept {env : Env} {k : Kind} {w : World} (hw : Found env k w) (ev : Name → Name → List Name)
    {p n h : Name} {x : Node} (hp : Prefix p) (_hm : (n, x) ∈ w.tree p) (hi : IsInput k n x) (hh : HashOf k p n h)
    (hv : verify env k (w.tree p) n = true) (hev : ∀ q m, h ∉ ev q m) :
    h ∈ (preload env k ev w).cached ∧
      ∀ c ∈ filesOf k n, ((preload env k ev w).tree p).get c = (w.tree p).get c := by
  obtain ⟨h1, h2, h3⟩ := hash_parts hp hi hh
  have I := Inv.final (ev := ev) hw.names hw.noDot hw.empty
  have hT : Target env k ev w h := ⟨h1, h2 ▸ (mem_prefixes p).mpr hp, by rw [h2, h3]; exact hv, hev⟩
  obtain ⟨k1, k2⟩ := I.keep h hT
  rw [h2, h3] at k1
  refine ⟨k2 ?_, fun c hc => k1 c ?_⟩
  · rw [h2]; exact (mem_prefixes p).mpr hp
  · cases k <;> exact hc

/-- C115: afterwards the entries that stand for inputs are those of the inputs in the cache, and all of these
verify (and did so before). -/
theorem C115_exact {env : Env} {k : Kind} {w : World} (hw : Found env k w) (ev : Name → Name → List Name) (h : Name) :
    h ∈ (preload env k ev w).cached ↔
      ∃ p n x, Prefix p ∧ (n, x) ∈ (preload env k ev w).tree p ∧ IsInput k n x ∧ HashOf k p n h := by
  have I := Inv.final (ev := ev) hw.names hw.noDot hw.empty
  constructor
  · intro hm
    obtain ⟨h1, h2, h3⟩ := I.cach h hm
    have hown : nameOf k h ∈ own k (nameOf k h) := by cases k <;> simp [own]
    obtain ⟨x, hx⟩ := Option.isSome_iff_exists.mp ((verify_there h3).1 _ hown)
    have hi : inputHash k (folderOf h) (nameOf k h, x) = some h := by
      refine hash_of fun hk => ?_
      obtain ⟨d, hd⟩ := ((verify_there h3).2.1 hk).1
      rw [hx] at hd
      exact ⟨d, Option.some.inj hd⟩
    obtain ⟨a, b⟩ := (inputHash_iff _ _ _ _ _).mp hi
    exact ⟨_, _, x, (mem_prefixes _).mp h2,
      (get_eq_some (Folder.Ok.sublist (hw.names _) (I.sub _))).mp hx, a, b⟩
  · rintro ⟨p, n, x, hp, hm, hi, hh⟩
    exact I.dn p n x h ((mem_prefixes p).mpr hp) ((mem_prefixes p).mpr hp) hm
      ((inputHash_iff _ _ _ _ _).mpr ⟨hi, hh⟩)

theorem C115_verified {env : Env} {k : Kind} {w : World} (hw : Found env k w) (ev : Name → Name → List Name)
    {p n h : Name} {x : Node} (hp : Prefix p) (hi : IsInput k n x) (hh : HashOf k p n h)
    (hm : h ∈ (preload env k ev w).cached) :
    verify env k ((preload env k ev w).tree p) n = true ∧ verify env k (w.tree p) n = true := by
  have I := Inv.final (ev := ev) hw.names hw.noDot hw.empty
  obtain ⟨h1, h2, h3⟩ := hash_parts hp hi hh
  obtain ⟨-, -, c⟩ := I.cach h hm
  rw [h2, h3] at c
  exact ⟨c, verify_mono (hw.names _) (I.sub _) c⟩

/-- C115: nothing else changes. Whatever is different afterwards is gone, and was an entry for an input that did not
verify or that the cache evicted, or a file next to it named after it. -/
theorem C115_frame {env : Env} {k : Kind} {w : World} (hw : Found env k w) (ev : Name → Name → List Name)
    {p c : Name} (hc : ((preload env k ev w).tree p).get c ≠ (w.tree p).get c) :
    ((preload env k ev w).tree p).get c = none ∧ Prefix p ∧
    ∃ n x h, (n, x) ∈ w.tree p ∧ IsInput k n x ∧ HashOf k p n h ∧
      (verify env k (w.tree p) n = false ∨ ∃ q m, h ∈ ev q m) ∧
      c ∈ [n, n ++ ['.', 't', 'm', 'p'], n ++ ['.', 's', 'h', 'a', '1'], n ++ ['.', 'l', 'e', 'n']] := by
  have I := Inv.final (ev := ev) hw.names hw.noDot hw.empty
  refine ⟨(get_sublist (hw.names _) (I.sub _) c).resolve_left hc, ?_⟩
  obtain ⟨h, x, h1, h2, h3, h4, h5, h6⟩ := (I.rem p c).resolve_left hc
  refine ⟨(mem_prefixes p).mp h5, nameOf k h, x, h, h2, ((inputHash_iff _ _ _ _ _).mp h3).1,
    ((inputHash_iff _ _ _ _ _).mp h3).2, ?_, h6⟩
  by_cases hv : verify env k (w.tree p) (nameOf k h) = true
  · right
    by_contra hne
    push Not at hne
    obtain ⟨a1, a2, -⟩ := hash_place (length_prefix h5) h3
    exact h4 ⟨a1, by rw [a2]; exact h5, by rw [h1]; exact hv, hne⟩
  · exact Or.inl (by simpa using hv)

/-! ### C116: leftovers of interrupted work -/

/-- C116 for directories of a runner: whatever directory is left holds an input that verifies; in particular the
directory of an interrupted download, whose name ends in `.tmp`, is gone. -/
theorem C116_runner_partial {env : Env} {w : World} (hw : Found env .runner w) (ev : Name → Name → List Name)
    {p n : Name} {d : Dir} (hp : Prefix p) (hm : (n, Node.dir d) ∈ (preload env .runner ev w).tree p) :
    verify env .runner ((preload env .runner ev w).tree p) n = true ∧
      ∀ m, n ≠ m ++ ['.', 't', 'm', 'p'] := by
  have hc : p ++ n ∈ (preload env .runner ev w).cached :=
    (C115_exact hw ev (p ++ n)).mpr ⟨p, n, .dir d, hp, hm, ⟨d, rfl⟩, rfl⟩
  obtain ⟨h1, h2⟩ := C115_verified hw ev hp (x := .dir d) ⟨d, rfl⟩ rfl hc
  refine ⟨h1, ?_⟩
  rintro m rfl
  have := hw.noDot rfl p _ h2
  simp at this

/-- What nobody claims stays: an entry that neither stands for an input nor is named after one that does is there
afterwards as before. -/
theorem C116_stays {env : Env} {k : Kind} {w : World} (hw : Found env k w) (ev : Name → Name → List Name) (p c : Name)
    (hc : ∀ n x, (n, x) ∈ w.tree p → IsInput k n x →
      c ∉ [n, n ++ ['.', 't', 'm', 'p'], n ++ ['.', 's', 'h', 'a', '1'], n ++ ['.', 'l', 'e', 'n']]) :
    ((preload env k ev w).tree p).get c = (w.tree p).get c := by
  by_contra hne
  obtain ⟨-, -, n, x, h, h1, h2, -, -, h3⟩ := C115_frame hw ev hne
  exact hc n x h1 h2 h3

/-- The files of an input of the grader as a folder. -/
def asFolder (n : Name) (d : Persist.Disk) : Folder :=
  [(n, d .archive), (n ++ dotTmp, d .tmp), (n ++ dotSha1, d .sha1), (n ++ dotLen, d .len)].filterMap
    fun e => e.2.map fun b => (e.1, Node.file b)

/-- C116 is false of the grader: when storing an archive was interrupted before the archive was moved into place,
preloading leaves everything that had been written. -/
theorem C116_grader_false {env : Env} {w : World} (hw : Found env .grader w) (ev : Name → Name → List Name)
    {p stem name a : Name} {size : Nat} {d : Persist.Disk}
    (hd : Persist.Run (Persist.gitOps env.H name a size) Persist.blank d false)
    (hf : w.tree p = asFolder (stem ++ tarGz) d) (c : Name) :
    ((preload env .grader ev w).tree p).get c = (w.tree p).get c := by
  apply C116_stays hw
  rintro n x hm ⟨t, rfl⟩
  exfalso
  have harch : d .archive = none := by
    have : ∀ ops : List Persist.Op, (∀ op ∈ ops.dropLast, ∀ d : Persist.Disk, d .archive = none →
        (op.apply d) .archive = none) → ∀ d d' : Persist.Disk, d .archive = none →
        Persist.Run ops d d' false → d' .archive = none := by
      intro ops
      induction ops with
      | nil => intro _ d d' _ h; cases h
      | cons op ops ih =>
        intro hops d d' hd0 h
        cases h with
        | stop => exact hd0
        | torn hp =>
          rename_i f b p
          by_cases hfa : f = .archive
          · subst hfa; simp [Persist.Op.apply, Persist.Disk.set, hd0]
          · have hfa' : ¬ Persist.File.archive = f := fun e => hfa e.symm
            simp [Persist.Op.apply, Persist.Disk.set, hfa', hd0]
        | step h' =>
          cases ops with
          | nil => cases h'
          | cons op2 ops2 =>
            refine ih (fun o ho => hops o ?_) _ _ (hops op ?_ _ hd0) h'
            · simp only [List.dropLast_cons_cons]; exact List.mem_cons_of_mem _ ho
            · simp
    refine this _ ?_ _ _ rfl hd
    intro op ho d hd0
    simp only [Persist.gitOps, List.dropLast_cons_cons, List.dropLast_singleton, List.mem_cons, List.not_mem_nil,
      or_false] at ho
    rcases ho with rfl | rfl | rfl | rfl | rfl | rfl <;> simp [Persist.Op.apply, Persist.Disk.set, hd0]
  rw [hf] at hm
  unfold asFolder at hm
  rw [List.mem_filterMap] at hm
  obtain ⟨e, he, hx⟩ := hm
  simp only [List.mem_cons, List.not_mem_nil, or_false] at he
  rcases he with rfl | rfl | rfl | rfl
  · simp [harch] at hx
  all_goals
    rw [Option.map_eq_some_iff] at hx
    obtain ⟨b, -, hb⟩ := hx
    exact absurd (Prod.mk.inj hb).1 (suffix_ne (by decide) (by decide) (by decide))

/-- C116 is false of the runner's lists of hashes: if a download was interrupted, its directory goes but the list
of hashes stays, as long as there is no other entry. -/
theorem C116_runner_false {env : Env} {w : World} (hw : Found env .runner w) (ev : Name → Name → List Name)
    {p n : Name} {d : Dir} {b : Bytes} (hf : w.tree p = [(n ++ dotTmp, .dir d), (n ++ dotSha1, .file b)]) :
    ((preload env .runner ev w).tree p).get (n ++ dotSha1) = some (.file b) := by
  rw [C116_stays hw, hf]
  · rw [get_eq_some (by rw [← hf]; exact hw.names p)]
    simp
  · intro m x hm hi
    rw [hf] at hm
    simp only [List.mem_cons, List.not_mem_nil, or_false] at hm
    obtain ⟨d', rfl⟩ := hi
    rcases hm with hm | hm
    · obtain ⟨rfl, -⟩ := Prod.mk.inj hm
      simp only [List.mem_cons, List.not_mem_nil, or_false, not_or, List.append_assoc]
      refine ⟨suffix_ne (by decide) (by decide) (by decide), ?_, ?_, ?_⟩ <;>
        intro e <;> exact absurd (List.append_cancel_left e) (by decide)
    · cases (Prod.mk.inj hm).2

/-! ### Examples -/

def settingsName : Name := ['s','e','t','t','i','n','g','s','.','j','s','o','n']

def exEnv : Env where
  H := Persist.exH
  settingsOk := fun _ => true
  lines := fun _ _ => [some (settingsName, ['h', '2'])]

def ab : Name := ['a', 'b']

/-- A runner's directory with an input that verifies, one whose file is damaged, and an interrupted download. -/
def exFolder : Folder :=
  [(['0', '1'], .dir [(settingsName, ['{', '}'])]), (['0', '1', '.', 's', 'h', 'a', '1'], .file []),
   (['0', '2'], .dir [(settingsName, ['{'])]), (['0', '2', '.', 's', 'h', 'a', '1'], .file []),
   (['0', '3', '.', 't', 'm', 'p'], .dir []), (['0', '3', '.', 's', 'h', 'a', '1'], .file [])]

def exWorld : World where
  tree := fun q => if q = ab then exFolder else []

theorem exWorld_found : Found exEnv .runner exWorld := by
  refine ⟨fun q => ?_, fun _ q n hv => ?_, rfl⟩
  · show ((if q = ab then exFolder else []).map Prod.fst).Nodup
    by_cases hq : q = ab
    · rw [if_pos hq]; decide
    · rw [if_neg hq]; exact List.nodup_nil
  · have ht := ((verify_there hv).2.1 rfl)
    obtain ⟨⟨d, hd⟩, ⟨b, hb⟩⟩ := ht
    change (if q = ab then exFolder else []).lookup n = _ at hd
    change (if q = ab then exFolder else []).lookup (n ++ dotSha1) = _ at hb
    by_cases hq : q = ab
    · rw [if_pos hq] at hd hb
      have hmem : (n, Node.dir d) ∈ exFolder := (get_eq_some (f := exFolder) (by unfold Folder.Ok; decide)).mp hd
      unfold exFolder at hmem
      simp only [List.mem_cons, List.not_mem_nil, or_false, Prod.mk.injEq, reduceCtorEq, and_false, false_or] at hmem
      rcases hmem with ⟨rfl, _⟩ | ⟨rfl, _⟩ | ⟨rfl, _⟩
      · decide
      · decide
      · revert hb; simp [exFolder, dotSha1, List.lookup]
    · rw [if_neg hq] at hd; cases hd

/-- What is left of it: the input that verifies, and the list of hashes of the interrupted download. -/
example : (preload exEnv .runner (fun _ _ => []) exWorld).tree ab =
      [(['0', '1'], .dir [(settingsName, ['{', '}'])]), (['0', '1', '.', 's', 'h', 'a', '1'], .file []),
       (['0', '3', '.', 's', 'h', 'a', '1'], .file [])] ∧
    (preload exEnv .runner (fun _ _ => []) exWorld).cached = [['a', 'b', '0', '1']] := by
  decide +kernel

/-- `C115_kept` applies to it. -/
example : (['a', 'b', '0', '1'] : Name) ∈ (preload exEnv .runner (fun _ _ => []) exWorld).cached :=
  (C115_kept exWorld_found (fun _ _ => []) (p := ab) (n := ['0', '1']) (x := .dir [(settingsName, ['{', '}'])])
    ⟨'a', 'b', rfl, by decide, by decide⟩ (by decide) ⟨_, rfl⟩ rfl (by decide +kernel) (by simp)).1

/-- If it is evicted right away, its files go. -/
example : (preload exEnv .runner (fun _ _ => [['a', 'b', '0', '1']]) exWorld).tree ab =
    [(['0', '3', '.', 's', 'h', 'a', '1'], .file [])] := by
  decide +kernel

/-- The grader: an archive that verifies, one without its length, and an interrupted one. -/
def exArchives : World where
  tree := fun q => if q = ab then
    [(['1', '.', 't', 'a', 'r', '.', 'g', 'z'], .file ['x', 'y']),
     (['1', '.', 't', 'a', 'r', '.', 'g', 'z', '.', 'l', 'e', 'n'], .file ['7', '\n']),
     (['1', '.', 't', 'a', 'r', '.', 'g', 'z', '.', 's', 'h', 'a', '1'], .file ['h', '2', ' ', '*', '1', '\n']),
     (['2', '.', 't', 'a', 'r', '.', 'g', 'z'], .file ['x', 'y']),
     (['2', '.', 't', 'a', 'r', '.', 'g', 'z', '.', 's', 'h', 'a', '1'], .file ['h', '2', ' ', '*', '1', '\n']),
     (['3', '.', 't', 'a', 'r', '.', 'g', 'z', '.', 't', 'm', 'p'], .file ['x'])] else []

example : ((preload exEnv .grader (fun _ _ => []) exArchives).tree ab).map Prod.fst =
      [['1', '.', 't', 'a', 'r', '.', 'g', 'z'], ['1', '.', 't', 'a', 'r', '.', 'g', 'z', '.', 'l', 'e', 'n'],
       ['1', '.', 't', 'a', 'r', '.', 'g', 'z', '.', 's', 'h', 'a', '1'],
       ['3', '.', 't', 'a', 'r', '.', 'g', 'z', '.', 't', 'm', 'p']] ∧
    (preload exEnv .grader (fun _ _ => []) exArchives).cached = [['a', 'b', '1']] := by
  decide +kernel

theorem exArchives_found : Found exEnv .grader exArchives := by
  refine ⟨fun q => ?_, (fun h => by cases h), rfl⟩
  unfold exArchives
  simp only
  by_cases hq : q = ab
  · rw [if_pos hq]; decide
  · rw [if_neg hq]; exact List.nodup_nil

/-- `C116_grader_false` applies to the interrupted one. -/
def exInterrupted : World where
  tree := fun q => if q = ab then asFolder (['3'] ++ tarGz)
    (Persist.Op.apply (Persist.Op.apply Persist.blank (.create .tmp)) (.append .tmp ['x'])) else []

example : ((preload exEnv .grader (fun _ _ => []) exInterrupted).tree ab).get (['3'] ++ tarGz ++ dotTmp) =
    some (.file ['x']) := by
  have hf : Found exEnv .grader exInterrupted := by
    refine ⟨fun q => ?_, (fun h => by cases h), rfl⟩
    unfold exInterrupted
    simp only
    by_cases hq : q = ab
    · rw [if_pos hq]; decide
    · rw [if_neg hq]; exact List.nodup_nil
  rw [C116_grader_false hf (fun _ _ => []) (p := ab) (stem := ['3']) (name := ['3']) (a := ['x', 'y']) (size := 7)
    (d := Persist.Op.apply (Persist.Op.apply Persist.blank (.create .tmp)) (.append .tmp ['x']))
    (.step (.torn ⟨['y'], rfl⟩)) (by simp [exInterrupted])]
  decide

/-- `C116_runner_false` applies to an interrupted download. -/
example : ((preload exEnv .runner (fun _ _ => [])
    { tree := fun q => if q = ab then [(['3'] ++ dotTmp, .dir []), (['3'] ++ dotSha1, .file ['z'])] else [] }).tree
      ab).get (['3'] ++ dotSha1) = some (.file ['z']) := by
  decide +kernel

end Quark.Preload
