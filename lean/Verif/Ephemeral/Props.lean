import Verif.Ephemeral.Model
import Verif.Path.Lemmas
import Mathlib.Tactic.SplitIfs

namespace Quark.Ephemeral

/-- The sum of the sizes of some entries. -/
def sizes (es : List Entry) : Int := (es.map Entry.size).sum

@[simp] theorem sizes_nil : sizes [] = 0 := rfl
@[simp] theorem sizes_cons (e : Entry) (es : List Entry) : sizes (e :: es) = e.size + sizes es := by simp [sizes]
@[simp] theorem sizes_append (a b : List Entry) : sizes (a ++ b) = sizes a + sizes b := by simp [sizes]

/-- What the eviction loop does. -/
theorem evict_spec (limit size : Int) (removes : Nat → Bool) (k : Nat) (es : List Entry)
    (ps : List (List Char)) (t : Int) :
    ∃ ev, es = ev ++ (evict limit size removes k es ps t).2.2.1 ∧
      (evict limit size removes k es ps t).2.1 = ev.map Entry.path ∧
      (evict limit size removes k es ps t).2.2.2.1 = ps.filter (fun p => p ∉ ev.map Entry.path) ∧
      (evict limit size removes k es ps t).2.2.2.2 = t - sizes ev ∧
      ((evict limit size removes k es ps t).1 = true →
        (evict limit size removes k es ps t).2.2.1 = [] ∨ t - sizes ev + size ≤ limit) ∧
      (∀ ev' x, ev = ev' ++ [x] → limit < t - sizes ev' + size) ∧
      ((∀ i, removes i = true) → (evict limit size removes k es ps t).1 = true) := by
  induction es generalizing k ps t with
  | nil => exact ⟨[], by simp [evict]⟩
  | cons e es ih =>
    rw [evict]
    split
    · rename_i hgt
      split
      · obtain ⟨ev, h1, h2, h3, h4, h5, h6, h7⟩ := ih (k + 1) (ps.filter (· ≠ e.path)) (t - e.size)
        refine ⟨e :: ev, ?_, ?_, ?_, ?_, ?_, ?_, ?_⟩
        · simp only [List.cons_append]; rw [← h1]
        · dsimp only; rw [h2]; rfl
        · dsimp only
          rw [h3, List.filter_filter]
          congr 1; funext p
          by_cases h1 : p = e.path <;> simp [h1]
        · simp only [h4, sizes_cons]; omega
        · intro h
          have := h5 h
          simp only [sizes_cons]
          rcases this with h | h
          · exact Or.inl h
          · right; omega
        · intro ev' x hx
          cases ev' with
          | nil => simp only [sizes_nil]; omega
          | cons y ev' =>
            simp only [List.cons_append, List.cons.injEq] at hx
            have := h6 ev' x hx.2
            rw [← hx.1]
            simp only [sizes_cons]; omega
        · exact fun h => h7 h
      · rename_i hk
        refine ⟨[], by simp, by simp, by simp, by simp, by simp, by simp, ?_⟩
        intro h; exact absurd (h k) hk
    · rename_i hle
      refine ⟨[], by simp, by simp, by simp, by simp, ?_, by simp, by simp⟩
      intro _; right; simp only [sizes_nil]; omega

/-- What `add` does: it drops some of the oldest entries, and adds the new one unless a removal failed. -/
theorem add_spec (m : Manager) (e : Entry) (removes : Nat → Bool) :
    ∃ ev kept, m.entries = ev ++ kept ∧
      (add m e removes).2.1 = ev.map Entry.path ∧
      (add m e removes).2.2.sizeLimit = m.sizeLimit ∧
      (∀ ev' x, ev = ev' ++ [x] → m.sizeLimit < m.totalSize - sizes ev' + e.size) ∧
      ((∀ i, removes i = true) → (add m e removes).1 = true) ∧
      (((add m e removes).1 = true ∧
        (add m e removes).2.2.entries = kept ++ [e] ∧
        (add m e removes).2.2.totalSize = m.totalSize - sizes ev + e.size ∧
        (kept = [] ∨ m.totalSize - sizes ev + e.size ≤ m.sizeLimit) ∧
        (add m e removes).2.2.paths = e.path :: m.paths.filter (fun p => p ∉ ev.map Entry.path)) ∨
       ((add m e removes).1 = false ∧
        (add m e removes).2.2.entries = kept ∧
        (add m e removes).2.2.totalSize = m.totalSize - sizes ev ∧
        (add m e removes).2.2.paths = m.paths.filter (fun p => p ∉ ev.map Entry.path))) := by
  obtain ⟨ev, h1, h2, h3, h4, h5, h6, h7⟩ := evict_spec m.sizeLimit e.size removes 0 m.entries m.paths m.totalSize
  refine ⟨ev, _, h1, ?_, ?_, h6, ?_, ?_⟩
  · unfold add; dsimp only; split <;> exact h2
  · unfold add; dsimp only; split <;> rfl
  · intro h
    have := h7 h
    unfold add; dsimp only; rw [if_pos this]
  · unfold add; dsimp only
    split
    · rename_i hok
      left
      exact ⟨rfl, rfl, by simp [h4], h5 hok, by simp [h3]⟩
    · right
      exact ⟨rfl, rfl, h4, h3⟩

/-! ### Histories -/

/-- The entry that an action adds to the cache, if it does. -/
def added (w : World) : Act → List Entry
  | .initAdd (some n) removes _ =>
    match w.todo with
    | [] => []
    | p :: _ => if (add w.mgr ⟨p, n⟩ removes).1 then [⟨p, n⟩] else []
  | .commit p (some n) removes =>
    if p ∈ w.pending then if (add w.mgr ⟨p, n⟩ removes).1 then [⟨p, n⟩] else [] else []
  | _ => []

/-- All entries that were ever added, the oldest first. -/
def history (root : List Char) : World → List Act → List Entry
  | _, [] => []
  | w, a :: as =>
    match step root w a with
    | none => []
    | some w' => added w a ++ history root w' as

/-- A step either leaves the manager alone or is one `add`. -/
theorem step_cases {root : List Char} {w w' : World} {a : Act} (h : step root w a = some w') :
    (w'.mgr = w.mgr ∧ added w a = []) ∨
    ∃ p n removes, w'.mgr = (add w.mgr ⟨p, (n : Nat)⟩ removes).2.2 ∧
      added w a = (if (add w.mgr ⟨p, (n : Nat)⟩ removes).1 then [⟨p, (n : Nat)⟩] else []) ∧
      ((∃ gone, a = .initAdd (some n) removes gone ∧ w.todo = p :: w'.todo) ∨ a = .commit p (some n) removes) := by
  cases a with
  | scan order => simp only [step] at h; split_ifs at h; cases h; exact Or.inl ⟨rfl, rfl⟩
  | create name => simp only [step] at h; split_ifs at h; cases h; exact Or.inl ⟨rfl, rfl⟩
  | discard p gone => simp only [step] at h; split_ifs at h <;> cases h <;> exact Or.inl ⟨rfl, rfl⟩
  | commit p size removes =>
    simp only [step] at h
    split at h
    · rename_i hp
      cases size with
      | none => cases h; exact Or.inl ⟨rfl, rfl⟩
      | some n =>
        cases h
        refine Or.inr ⟨p, n, removes, rfl, ?_, Or.inr rfl⟩
        simp only [added, hp, if_true]
    · exact absurd h (by simp)
  | initAdd size removes gone =>
    simp only [step] at h
    split at h
    · exact absurd h (by simp)
    · rename_i p todo htodo
      cases size with
      | none => cases h; exact Or.inl ⟨rfl, rfl⟩
      | some n =>
        cases h
        refine Or.inr ⟨p, n, removes, rfl, ?_, Or.inl ⟨gone, rfl, htodo⟩⟩
        simp only [added, htodo]

theorem run_induction {root : List Char} {P : World → Prop} (hstep : ∀ w a w', P w → step root w a = some w' → P w')
    {w w' : World} {as : List Act} (h0 : P w) (h : run root w as = some w') : P w' := by
  induction as generalizing w with
  | nil => simp only [run] at h; cases h; exact h0
  | cons a as ih =>
    simp only [run, Option.bind_eq_some_iff] at h
    obtain ⟨w1, h1, h2⟩ := h
    exact ih (hstep _ _ _ h0 h1) h2

/-- The total is the sum, sizes are not negative, and the limit holds unless there is only one entry. -/
structure Sized (m : Manager) : Prop where
  total : m.totalSize = sizes m.entries
  nonneg : ∀ e ∈ m.entries, 0 ≤ e.size
  bound : m.totalSize ≤ m.sizeLimit ∨ m.entries.length ≤ 1

theorem sizes_nonneg {es : List Entry} (h : ∀ e ∈ es, 0 ≤ e.size) : 0 ≤ sizes es := by
  induction es with
  | nil => simp
  | cons e es ih =>
    have := ih (fun x hx => h x (by simp [hx]))
    have := h e (by simp)
    simp only [sizes_cons]; omega

theorem Sized.add {m : Manager} (h : Sized m) (p : List Char) (n : Nat) (removes : Nat → Bool) :
    Sized (Ephemeral.add m ⟨p, n⟩ removes).2.2 := by
  obtain ⟨ev, kept, h1, _, hl, _, _, h5⟩ := add_spec m ⟨p, n⟩ removes
  have hs : m.totalSize = sizes ev + sizes kept := by rw [h.total, h1, sizes_append]
  have hev : 0 ≤ sizes ev := sizes_nonneg fun e he => h.nonneg e (by rw [h1]; simp [he])
  rcases h5 with ⟨_, he, ht, hb, _⟩ | ⟨_, he, ht, _⟩
  · refine ⟨?_, ?_, ?_⟩
    · rw [ht, he]; simp only [sizes_append, sizes_cons, sizes_nil]; omega
    · intro e hm
      rw [he] at hm
      rcases List.mem_append.1 hm with hm | hm
      · exact h.nonneg e (by rw [h1]; simp [hm])
      · simp only [List.mem_singleton] at hm; subst hm; simp
    · rw [ht, hl, he]
      rcases hb with hb | hb
      · right; simp [hb]
      · left; exact hb
  · refine ⟨?_, ?_, ?_⟩
    · rw [ht, he]; omega
    · intro e hm; rw [he] at hm; exact h.nonneg e (by rw [h1]; simp [hm])
    · rw [ht, hl, he]
      rcases h.bound with hb | hb
      · left; omega
      · right; rw [h1] at hb; simp only [List.length_append] at hb; omega

theorem Sized.step {root : List Char} {w w' : World} {a : Act} (h : Sized w.mgr)
    (hs : Ephemeral.step root w a = some w') : Sized w'.mgr := by
  rcases step_cases hs with ⟨he, _⟩ | ⟨p, n, removes, he, _⟩
  · rw [he]; exact h
  · rw [he]; exact h.add p n removes

/-- **C31** (accounting and bound). At every moment of every history, whatever removals fail: the tracked total
is the sum of the sizes of the cached entries, and it is within the limit unless at most one entry is cached. -/
theorem C31_accounting (root : List Char) (limit : Int) (disk : List (List Char)) (as : List Act) (w : World)
    (h : run root (start limit disk) as = some w) :
    w.mgr.totalSize = (w.mgr.entries.map Entry.size).sum ∧
    (w.mgr.totalSize ≤ limit ∨ w.mgr.entries.length ≤ 1) := by
  have : Sized w.mgr ∧ w.mgr.sizeLimit = limit := by
    refine run_induction (P := fun w => Sized w.mgr ∧ w.mgr.sizeLimit = limit) ?_ ?_ h
    · rintro w a w' ⟨h1, h2⟩ hs
      refine ⟨h1.step hs, ?_⟩
      rcases step_cases hs with ⟨he, _⟩ | ⟨p, n, removes, he, _⟩
      · rw [he, h2]
      · rw [he]
        obtain ⟨_, _, _, _, hl, _⟩ := add_spec w.mgr ⟨p, n⟩ removes
        rw [hl, h2]
    · exact ⟨⟨rfl, by simp [start], Or.inr (by simp [start])⟩, rfl⟩
  exact ⟨this.1.total, by have hb := this.1.bound; rw [this.2] at hb; exact hb⟩

/-- **C31** (after an add). After a successful add the new entry is cached, and the total is within the limit
unless the new entry is the only one. This holds for one `add` on any manager with sizes of any sign. -/
theorem C31_after_add (m : Manager) (e : Entry) (removes : Nat → Bool)
    (hm : m.totalSize = (m.entries.map Entry.size).sum) (hok : (add m e removes).1 = true) :
    e ∈ (add m e removes).2.2.entries ∧
    (add m e removes).2.2.totalSize = ((add m e removes).2.2.entries.map Entry.size).sum ∧
    ((add m e removes).2.2.totalSize ≤ m.sizeLimit ∨ (add m e removes).2.2.entries = [e]) := by
  obtain ⟨ev, kept, h1, _, hl, _, _, h5⟩ := add_spec m e removes
  have hs : m.totalSize = sizes ev + sizes kept := by rw [hm, h1]; simp [sizes]
  rcases h5 with ⟨_, he, ht, hb, _⟩ | ⟨hf, _⟩
  · refine ⟨by rw [he]; simp, ?_, ?_⟩
    · rw [ht, he]
      have : ((kept ++ [e]).map Entry.size).sum = sizes kept + e.size := by simp [sizes]
      rw [this]; omega
    · rw [ht, he]
      rcases hb with hb | hb
      · right; simp [hb]
      · left; exact hb
  · rw [hok] at hf; exact absurd hf (by simp)

/-- **C32** (oldest first). At every moment of every history the cached entries are the most recent ones: a
suffix of all the entries ever added. -/
theorem C32_suffix (root : List Char) (limit : Int) (disk : List (List Char)) (as : List Act) (w : World)
    (h : run root (start limit disk) as = some w) :
    w.mgr.entries <:+ history root (start limit disk) as := by
  suffices ∀ (w0 : World) (old : List Entry) (as : List Act), w0.mgr.entries <:+ old →
      run root w0 as = some w → w.mgr.entries <:+ old ++ history root w0 as by
    simpa using this (start limit disk) [] as (by simp [start]) h
  clear h
  intro w0 old as h0 h
  induction as generalizing w0 old with
  | nil => simp only [run] at h; cases h; simpa [history] using h0
  | cons a as ih =>
    simp only [run, Option.bind_eq_some_iff] at h
    obtain ⟨w1, h1, h2⟩ := h
    simp only [history, h1]
    rw [← List.append_assoc]
    refine ih w1 (old ++ added w0 a) ?_ h2
    rcases step_cases h1 with ⟨he, ha⟩ | ⟨p, n, removes, he, ha, _⟩
    · rw [he, ha]; simpa using h0
    · rw [he, ha]
      obtain ⟨ev, kept, hk, _, _, _, _, h5⟩ := add_spec w0.mgr ⟨p, n⟩ removes
      have hkept : kept <:+ old := (hk ▸ List.suffix_append ev kept : kept <:+ w0.mgr.entries).trans h0
      rcases h5 with ⟨ho, hent, _⟩ | ⟨ho, hent, _⟩
      · rw [hent, ho]
        obtain ⟨pre, rfl⟩ := hkept
        exact ⟨pre, by simp⟩
      · rw [hent, ho]; simpa using hkept

/-- **C32** (minimal). A successful add drops entries from the oldest end only, and the part it keeps is the
longest one that leaves room for the new entry. -/
theorem C32_minimal (m : Manager) (e : Entry) (removes : Nat → Bool) (hm : Sized m)
    (hok : (add m e removes).1 = true) :
    ∃ kept, kept <:+ m.entries ∧ (add m e removes).2.2.entries = kept ++ [e] ∧
      (kept = [] ∨ (kept.map Entry.size).sum + e.size ≤ m.sizeLimit) ∧
      ∀ more, more <:+ m.entries → (more.map Entry.size).sum + e.size ≤ m.sizeLimit →
        more.length ≤ kept.length := by
  obtain ⟨ev, kept, h1, _, hl, hmin, _, h5⟩ := add_spec m e removes
  have hs : m.totalSize = sizes ev + sizes kept := by rw [hm.total, h1, sizes_append]
  rcases h5 with ⟨_, he, ht, hb, _⟩ | ⟨hf, _⟩
  · refine ⟨kept, h1 ▸ List.suffix_append ev kept, he, ?_, ?_⟩
    · rcases hb with hb | hb
      · exact Or.inl hb
      · right; change sizes kept + e.size ≤ _; omega
    · intro more hmore hfit
      change sizes more + e.size ≤ _ at hfit
      by_contra hlt
      replace hlt := Nat.lt_of_not_le hlt
      rcases List.eq_nil_or_concat ev with hev | ⟨ev', x, hev⟩
      · subst hev
        have := hmore.length_le
        rw [h1] at this; simp at this; omega
      · rw [List.concat_eq_append] at hev
        have hlast := hmin ev' x hev
        -- `more` contains the last evicted entry and everything kept
        have hx : (x :: kept) <:+ more := by
          have : (x :: kept) <:+ m.entries := by rw [h1, hev]; exact ⟨ev', by simp⟩
          exact List.suffix_of_suffix_length_le this hmore (by simp only [List.length_cons]; omega)
        obtain ⟨pre, rfl⟩ := hx
        have hpre : 0 ≤ sizes pre :=
          sizes_nonneg fun y hy => hm.nonneg y (hmore.subset (by simp [hy]))
        simp only [sizes_append, sizes_cons] at hfit
        have : sizes ev = sizes ev' + x.size := by rw [hev]; simp
        omega
  · rw [hok] at hf; exact absurd hf (by simp)

/-- An add never fails when every removal works. -/
theorem C32_succeeds (m : Manager) (e : Entry) (removes : Nat → Bool) (h : ∀ k, removes k = true) :
    (add m e removes).1 = true := by
  obtain ⟨_, _, _, _, _, _, h5, _⟩ := add_spec m e removes
  exact h5 h

/-! Three runs of sizes 4, 3 and 5 with limit 10: the third add evicts the first run only. -/

/-- Names for examples. -/
def exName (k : Nat) : List Char := ("ab" ++ toString k).toList
def exRoot : List Char := "/var/lib/omegaup/ephemeral".toList
def exPath (k : Nat) : List Char := Path.join [exRoot, exName k]

def exActs : List Act :=
  [.scan [], .create (exName 1), .create (exName 2), .commit (exPath 1) (some 4) (fun _ => true),
    .commit (exPath 2) (some 3) (fun _ => true), .create (exName 3),
    .commit (exPath 3) (some 5) (fun _ => true)]

example : (run exRoot (start 10 []) exActs).map (fun w => (w.mgr.entries, w.mgr.totalSize, w.disk)) =
    some ([⟨exPath 2, 3⟩, ⟨exPath 3, 5⟩], 8, [exPath 3, exPath 2]) := by decide +kernel

example : history exRoot (start 10 []) exActs = [⟨exPath 1, 4⟩, ⟨exPath 2, 3⟩, ⟨exPath 3, 5⟩] := by
  decide +kernel

/-! ### Looking runs up -/

/-- The directory was made inside the ephemeral directory. -/
def Inside (root p : List Char) : Prop := ∃ name, Path.Name name ∧ p = Path.join [root, name]

/-- Directories are accounted for once: a directory is cached, or in the hands of one handler, or still to be
looked at by `Initialize`; all these exist. -/
structure Tidy (root : List Char) (w : World) : Prop where
  nodup : (w.mgr.entries.map Entry.path ++ (w.todo ++ w.pending)).Nodup
  exist : ∀ p, p ∈ w.mgr.entries.map Entry.path ++ (w.todo ++ w.pending) → p ∈ w.disk
  inside : ∀ p ∈ w.disk, Inside root p
  paths : ∀ p, p ∈ w.mgr.paths ↔ p ∈ w.mgr.entries.map Entry.path

/-- What `add` does to a tidy manager: the new directory takes the place of some evicted ones. -/
theorem Tidy.addEntry {root : List Char} {w : World} {p : List Char} {n : Nat} {removes : Nat → Bool}
    {others : List (List Char)}
    (hnd : (w.mgr.entries.map Entry.path ++ p :: others).Nodup)
    (hex : ∀ q, q ∈ w.mgr.entries.map Entry.path ++ p :: others → q ∈ w.disk)
    (hpaths : ∀ q, q ∈ w.mgr.paths ↔ q ∈ w.mgr.entries.map Entry.path)
    (hinside : ∀ q ∈ w.disk, Inside root q) :
    (((w.addEntry p n removes).mgr.entries.map Entry.path) ++ others).Nodup ∧
    (∀ q, q ∈ (w.addEntry p n removes).mgr.entries.map Entry.path ++ others → q ∈ (w.addEntry p n removes).disk) ∧
    (∀ q, q ∈ (w.addEntry p n removes).mgr.paths ↔ q ∈ (w.addEntry p n removes).mgr.entries.map Entry.path) ∧
    (∀ q ∈ (w.addEntry p n removes).disk, Inside root q) := by
  obtain ⟨ev, kept, h1, hgone, hl, _, _, h5⟩ := add_spec w.mgr ⟨p, n⟩ removes
  have hdisk : (w.addEntry p n removes).disk = w.disk.filter (fun q => q ∉ ev.map Entry.path) := by
    simp only [World.addEntry, World.without, hgone]
  have hmgr : (w.addEntry p n removes).mgr = (add w.mgr ⟨p, n⟩ removes).2.2 := rfl
  rw [h1, List.map_append, List.append_assoc] at hnd hex
  have hnd2 := (List.nodup_append.1 hnd).2.1
  have hdisj := (List.nodup_append.1 hnd).2.2
  rw [hdisk, hmgr]
  have hmemfilter : ∀ q, q ∈ kept.map Entry.path ++ p :: others →
      q ∈ w.disk.filter (fun q => q ∉ ev.map Entry.path) := by
    intro q hq
    rw [List.mem_filter]
    refine ⟨hex q (List.mem_append_right _ hq), ?_⟩
    simp only [decide_eq_true_eq]
    intro hq'
    exact hdisj q hq' q hq rfl
  have hpk : ∀ q, q ∈ w.mgr.paths.filter (fun q => q ∉ ev.map Entry.path) ↔ q ∈ kept.map Entry.path := by
    intro q
    simp only [List.mem_filter, hpaths q, h1, List.map_append, List.mem_append, decide_eq_true_eq]
    constructor
    · rintro ⟨h | h, h'⟩
      · exact absurd h h'
      · exact h
    · intro h
      exact ⟨Or.inr h, fun h' => hdisj q h' q (by simp [h]) rfl⟩
  rcases h5 with ⟨_, he, _, _, hp⟩ | ⟨_, he, _, hp⟩
  · refine ⟨?_, ?_, ?_, ?_⟩
    · rw [he, List.map_append, List.append_assoc]; exact hnd2
    · intro q hq
      apply hmemfilter
      rw [he] at hq
      simpa using hq
    · intro q
      rw [hp, he, List.mem_cons, hpk]
      simp only [List.map_append, List.mem_append, List.map_cons, List.map_nil, List.mem_singleton]
      exact or_comm
    · exact fun q hq => hinside q (List.mem_of_mem_filter hq)
  · refine ⟨?_, ?_, ?_, ?_⟩
    · rw [he]
      have h2 := List.nodup_append.1 hnd2
      rw [List.nodup_append]
      exact ⟨h2.1, (List.nodup_cons.1 h2.2.1).2, fun a ha b hb => h2.2.2 a ha b (by simp [hb])⟩
    · intro q hq
      apply hmemfilter
      rw [he] at hq
      rcases List.mem_append.1 hq with hq | hq
      · exact List.mem_append_left _ hq
      · exact List.mem_append_right _ (by simp [hq])
    · intro q
      rw [hp, he, hpk]
    · exact fun q hq => hinside q (List.mem_of_mem_filter hq)

theorem perm_erase_front {p : List Char} {a b c : List (List Char)} (h : p ∈ c) :
    (a ++ (b ++ c)).Perm (a ++ p :: (b ++ c.erase p)) := by
  refine List.Perm.append_left a ?_
  exact ((List.perm_cons_erase h).append_left b).trans List.perm_middle

theorem Tidy.without {root : List Char} {w : World} {p : List Char} {others : List (List Char)}
    (hnd : (w.mgr.entries.map Entry.path ++ p :: others).Nodup)
    (hex : ∀ q, q ∈ w.mgr.entries.map Entry.path ++ p :: others → q ∈ w.disk)
    (hinside : ∀ q ∈ w.disk, Inside root q) (gone : Bool) :
    (w.mgr.entries.map Entry.path ++ others).Nodup ∧
    (∀ q, q ∈ w.mgr.entries.map Entry.path ++ others → q ∈ (if gone then w.without [p] else w.disk)) ∧
    (∀ q ∈ (if gone then w.without [p] else w.disk), Inside root q) := by
  have hnd' := (List.perm_middle.nodup_iff.1 hnd)
  refine ⟨(List.nodup_cons.1 hnd').2, ?_, ?_⟩
  · intro q hq
    have hqd : q ∈ w.disk := hex q (by
      rcases List.mem_append.1 hq with h | h
      · exact List.mem_append_left _ h
      · exact List.mem_append_right _ (by simp [h]))
    split
    · simp only [World.without, List.mem_filter, hqd, true_and, decide_eq_true_eq, List.mem_singleton]
      rintro rfl
      exact (List.nodup_cons.1 hnd').1 hq
    · exact hqd
  · intro q hq
    split at hq
    · exact hinside q (List.mem_of_mem_filter hq)
    · exact hinside q hq

theorem Tidy.step {root : List Char} {w w' : World} {a : Act} (h : Tidy root w) (hscan : w.scanned = true)
    (hname : ∀ n, a = .create n → Path.Name n) (hs : Ephemeral.step root w a = some w') :
    Tidy root w' ∧ w'.scanned = true := by
  cases a with
  | scan order => simp [Ephemeral.step, hscan] at hs
  | create name =>
    simp only [Ephemeral.step] at hs
    split_ifs at hs with hd
    cases hs
    refine ⟨⟨?_, ?_, ?_, h.paths⟩, hscan⟩
    · have : (w.mgr.entries.map Entry.path ++ (w.todo ++ Path.join [root, name] :: w.pending)).Perm
          (Path.join [root, name] :: (w.mgr.entries.map Entry.path ++ (w.todo ++ w.pending))) := by
        rw [← List.append_assoc, ← List.append_assoc]; exact List.perm_middle
      refine this.nodup_iff.2 (List.nodup_cons.2 ⟨fun hm => hd (h.exist _ hm), h.nodup⟩)
    · intro p hp
      have : p = Path.join [root, name] ∨ p ∈ w.mgr.entries.map Entry.path ++ (w.todo ++ w.pending) := by
        simp only [List.mem_append, List.mem_cons] at hp ⊢; tauto
      rcases this with rfl | hp
      · simp
      · exact List.mem_cons_of_mem _ (h.exist p hp)
    · intro p hp
      rcases List.mem_cons.1 hp with rfl | hp
      · exact ⟨name, hname name rfl, rfl⟩
      · exact h.inside p hp
  | discard p gone =>
    simp only [Ephemeral.step] at hs
    split at hs
    · rename_i hp
      cases hs
      have hperm := perm_erase_front (a := w.mgr.entries.map Entry.path) (b := w.todo) hp
      have := Tidy.without (root := root) (w := w) (hperm.nodup_iff.1 h.nodup)
        (fun q hq => h.exist q (hperm.mem_iff.2 hq)) h.inside gone
      exact ⟨⟨this.1, this.2.1, this.2.2, h.paths⟩, hscan⟩
    · exact absurd hs (by simp)
  | commit p size removes =>
    simp only [Ephemeral.step] at hs
    split at hs
    · rename_i hp
      have hperm := perm_erase_front (a := w.mgr.entries.map Entry.path) (b := w.todo) hp
      cases size with
      | none =>
        cases hs
        have := Tidy.without (root := root) (w := w) (hperm.nodup_iff.1 h.nodup)
          (fun q hq => h.exist q (hperm.mem_iff.2 hq)) h.inside false
        exact ⟨⟨this.1, this.2.1, h.inside, h.paths⟩, hscan⟩
      | some n =>
        cases hs
        have := Tidy.addEntry (root := root) (w := w) (n := n) (removes := removes)
          (hperm.nodup_iff.1 h.nodup) (fun q hq => h.exist q (hperm.mem_iff.2 hq)) h.paths h.inside
        exact ⟨⟨this.1, this.2.1, this.2.2.2, this.2.2.1⟩, hscan⟩
    · exact absurd hs (by simp)
  | initAdd size removes gone =>
    simp only [Ephemeral.step] at hs
    split at hs
    · exact absurd hs (by simp)
    · rename_i p todo htodo
      have hnd := h.nodup
      have hex := h.exist
      rw [htodo, List.cons_append] at hnd hex
      cases size with
      | none =>
        cases hs
        have := Tidy.without (root := root) (w := w) hnd hex h.inside gone
        exact ⟨⟨this.1, this.2.1, this.2.2, h.paths⟩, hscan⟩
      | some n =>
        cases hs
        have := Tidy.addEntry (root := root) (w := w) (n := n) (removes := removes) hnd hex h.paths h.inside
        exact ⟨⟨this.1, this.2.1, this.2.2.2, this.2.2.1⟩, hscan⟩

/-- What is known of the outside: the directory held distinct, well-formed names when the process started, and
the names that `SetEphemeral` tries are file names. -/
structure Fair (root : List Char) (disk : List (List Char)) (as : List Act) : Prop where
  distinct : disk.Nodup
  inside : ∀ p ∈ disk, Inside root p
  names : ∀ n, Act.create n ∈ as → Path.Name n

theorem tidy_run {root : List Char} {limit : Int} {disk order : List (List Char)} {as : List Act} {w : World}
    (hf : Fair root disk as) (h : run root (start limit disk) (.scan order :: as) = some w) : Tidy root w := by
  simp only [run, Option.bind_eq_some_iff] at h
  obtain ⟨w1, h1, h2⟩ := h
  have hw1 : Tidy root w1 ∧ w1.scanned = true := by
    simp only [step] at h1
    split_ifs at h1 with hp
    cases h1
    simp only [start, not_or, Bool.false_eq_true, not_false_eq_true, true_and, Decidable.not_not] at hp
    refine ⟨⟨?_, ?_, hf.inside, by simp [start]⟩, rfl⟩
    · simpa [start] using hp.nodup_iff.2 hf.distinct
    · intro p hp'
      simp only [start, List.map_nil, List.nil_append, List.append_nil] at hp' ⊢
      exact hp.mem_iff.1 hp'
  clear h1
  have hn := hf.names
  clear hf
  revert w1
  induction as with
  | nil => intro w1 h2 hw1; simp only [run] at h2; cases h2; exact hw1.1
  | cons a as ih =>
    intro w1 h2 hw1
    simp only [run, Option.bind_eq_some_iff] at h2
    obtain ⟨w2, h3, h4⟩ := h2
    exact ih (fun n hn' => hn n (by simp [hn'])) w2 h4
      (hw1.1.step hw1.2 (fun n ha => hn n (by simp [ha])) h3)

/-- **C33** (partial: `Initialize` reads the directory before the first run is accepted; the grader does not
wait for that, see `C33_broken_by_startup`). `Get` succeeds for a token exactly when the directory that the token
stands for is cached at that moment; the directory then exists, and it is directly inside the ephemeral
directory. This holds for every string: `token` is not restricted. -/
theorem C33_get_partial (root : List Char) (limit : Int) (disk order : List (List Char)) (as : List Act) (w : World)
    (token p : List Char) (hf : Fair root disk as)
    (h : run root (start limit disk) (.scan order :: as) = some w) :
    (get root w.mgr token = some p ↔
      p = Path.join [root, token] ∧ ∃ e ∈ w.mgr.entries, e.path = p) ∧
    (get root w.mgr token = some p → p ∈ w.disk ∧ ∃ name, Path.Name name ∧ p = Path.join [root, name]) := by
  have ht := tidy_run hf h
  have hiff : get root w.mgr token = some p ↔
      p = Path.join [root, token] ∧ ∃ e ∈ w.mgr.entries, e.path = p := by
    have hp := ht.paths (Path.join [root, token])
    simp only [List.mem_map] at hp
    unfold get
    dsimp only
    split
    · rename_i hm
      replace hm : Path.join [root, token] ∈ w.mgr.paths := by simpa using hm
      constructor
      · intro he; cases he; exact ⟨rfl, hp.1 hm⟩
      · rintro ⟨rfl, _⟩; rfl
    · rename_i hm
      replace hm : Path.join [root, token] ∉ w.mgr.paths := by simpa using hm
      constructor
      · intro he; exact absurd he (by simp)
      · rintro ⟨rfl, he⟩; exact absurd (hp.2 he) hm
  refine ⟨hiff, fun hg => ?_⟩
  obtain ⟨_, e, he, hep⟩ := hiff.1 hg
  have hd : p ∈ w.disk := ht.exist p (List.mem_append_left _ (List.mem_map.2 ⟨e, he, hep⟩))
  exact ⟨hd, ht.inside p hd⟩

/-- **C33** (partial, as above) for the tokens that are handed out, which are file names: the lookup finds
exactly the cached run that was given this token, under the name it was created with. -/
theorem C33_token_partial (root : List Char) (limit : Int) (disk order : List (List Char)) (as : List Act)
    (w : World) (token : List Char) (hroot : root ≠ []) (hf : Fair root disk as) (htok : Path.Name token)
    (h : run root (start limit disk) (.scan order :: as) = some w) :
    (get root w.mgr token).isSome = true ↔ ∃ e ∈ w.mgr.entries, Path.base e.path = token := by
  have hg := C33_get_partial root limit disk order as w token (Path.join [root, token]) hf h
  have ht := tidy_run hf h
  have hsome : (get root w.mgr token).isSome = true ↔ get root w.mgr token = some (Path.join [root, token]) := by
    unfold get; dsimp only; split <;> simp
  rw [hsome, hg.1]
  constructor
  · rintro ⟨_, e, he, hep⟩
    exact ⟨e, he, by rw [hep, Path.base_join hroot htok]⟩
  · rintro ⟨e, he, hb⟩
    refine ⟨rfl, e, he, ?_⟩
    obtain ⟨name, hn, hp⟩ :=
      ht.inside e.path (ht.exist _ (List.mem_append_left _ (List.mem_map.2 ⟨e, he, rfl⟩)))
    rw [hp, Path.base_join hroot hn] at hb
    rw [hp, hb]

/-- **C33** (partial, as above) for the handler: whatever the URL says, what is served is one of the five
files (or its compressed form) directly inside a cached run's directory, which is directly inside the ephemeral
directory. -/
theorem C33_served_partial (root : List Char) (limit : Int) (disk order : List (List Char)) (as : List Act)
    (w : World) (token file f : List Char) (gz : List Char → Bool) (hf : Fair root disk as) (hroot : root ≠ [])
    (h : run root (start limit disk) (.scan order :: as) = some w) (hs : serve root w.mgr token file gz = some f) :
    ∃ e ∈ w.mgr.entries, ∃ name, Path.Name name ∧ e.path = Path.join [root, name] ∧
      ∃ out, (out = file ∨ out = file ++ ".gz".toList) ∧
        file ∈ ["details.json".toList, "files.zip".toList, "logs.txt".toList, "request.json".toList,
          "tracing.json".toList] ∧
        Path.names f = Path.names root ++ [name, out] ∧ Path.rooted f = Path.rooted root := by
  unfold serve at hs
  split at hs
  · rename_i hv
    have hv' : file ∈ ["details.json".toList, "files.zip".toList, "logs.txt".toList, "request.json".toList,
        "tracing.json".toList] := by simpa [validFilenames] using hv
    cases hg : get root w.mgr token with
    | none => rw [hg] at hs; exact absurd hs (by simp)
    | some p =>
      rw [hg] at hs
      dsimp only at hs
      have hp := C33_get_partial root limit disk order as w token p hf h
      obtain ⟨_, e, he, hep⟩ := hp.1.1 hg
      obtain ⟨_, name, hn, hpn⟩ := hp.2 hg
      have hpne : p ≠ [] := by
        rw [hpn, Path.join_cons hroot]; exact Path.clean_ne_nil _
      have hfile : ∀ x : List Char, x ∈ ["details.json".toList, "files.zip".toList, "logs.txt".toList,
          "request.json".toList, "tracing.json".toList] → Path.Name x ∧ Path.Name (x ++ ".gz".toList) := by
        decide +kernel
      have hgzj : Path.join [p, file] ++ ".gz".toList = Path.join [p, file ++ ".gz".toList] :=
        Path.join_append hpne (hfile file hv').1 (hfile file hv').2
      have hroot' : Path.rooted p = Path.rooted root := by rw [hpn, Path.rooted_join hroot]
      have hnames : Path.names p = Path.names root ++ [name] := by rw [hpn, Path.names_join_name hroot hn]
      refine ⟨e, he, name, hn, hep.trans hpn, if gz (Path.join [p, file]) then file ++ ".gz".toList else file,
        by split <;> simp, hv', ?_⟩
      cases hs
      split
      · rw [hgzj, Path.names_join_name hpne (hfile file hv').2, hnames, Path.rooted_join hpne, hroot']
        simp
      · rw [Path.names_join_name hpne (hfile file hv').1, hnames, Path.rooted_join hpne, hroot']
        simp
  · exact absurd hs (by simp)

/-- **C33** (eviction is final). If a step makes `Get` succeed for a token, it is the step that adds that very
directory; so once evicted, a directory is not found again until it is added again. No assumption on the
history. -/
theorem C33_only_adds (root : List Char) (w w' : World) (a : Act) (token p : List Char)
    (hs : step root w a = some w') (hbefore : get root w.mgr token = none)
    (hafter : get root w'.mgr token = some p) : ∃ n : Nat, added w a = [⟨p, n⟩] := by
  have hg : ∀ m : Manager, get root m token = some p → p = Path.join [root, token] ∧ p ∈ m.paths := by
    intro m hm
    unfold get at hm
    dsimp only at hm
    split at hm
    · rename_i hc; cases hm; exact ⟨rfl, by simpa using hc⟩
    · exact absurd hm (by simp)
  have hb : p ∉ w.mgr.paths := by
    intro hm
    have := (hg _ hafter).1
    subst this
    unfold get at hbefore
    dsimp only at hbefore
    rw [if_pos (by simpa using hm)] at hbefore
    exact absurd hbefore (by simp)
  have ha := (hg _ hafter).2
  rcases step_cases hs with ⟨he, _⟩ | ⟨q, n, removes, he, hadd, _⟩
  · rw [he] at ha; exact absurd ha hb
  · rw [he] at ha
    obtain ⟨ev, kept, _, _, _, _, _, h5⟩ := add_spec w.mgr ⟨q, n⟩ removes
    rcases h5 with ⟨ho, _, _, _, hp⟩ | ⟨ho, _, _, hp⟩
    · rw [hp] at ha
      rcases List.mem_cons.1 ha with hq | hq
      · refine ⟨n, ?_⟩
        rw [hadd, ho, if_pos rfl]
        simp only at hq
        rw [hq]
      · exact absurd (List.mem_of_mem_filter hq) hb
    · rw [hp] at ha; exact absurd (List.mem_of_mem_filter ha) hb

/-- **C33** (evicted runs are not found). A directory that a successful add evicts is not found afterwards. -/
theorem C33_evicted (root : List Char) (m : Manager) (e : Entry) (removes : Nat → Bool) (token p : List Char)
    (hev : p ∈ (add m e removes).2.1) (hne : p ≠ e.path) : get root (add m e removes).2.2 token ≠ some p := by
  obtain ⟨ev, kept, _, hgone, _, _, _, h5⟩ := add_spec m e removes
  intro hg
  unfold get at hg
  dsimp only at hg
  split at hg
  · rename_i hc
    have hpt : Path.join [root, token] = p := by simpa using hg
    rw [hpt] at hc
    have hc : p ∈ (add m e removes).2.2.paths := by simpa using hc
    rw [hgone] at hev
    rcases h5 with ⟨_, _, _, _, hp⟩ | ⟨_, _, _, hp⟩
    · rw [hp] at hc
      rcases List.mem_cons.1 hc with h | h
      · exact hne h
      · have := List.of_mem_filter h
        simp only [decide_eq_true_eq] at this
        exact this hev
    · rw [hp] at hc
      have := List.of_mem_filter hc
      simp only [decide_eq_true_eq] at this
      exact this hev
  · exact absurd hg (by simp)

/-- **C33 is false of the grader as it is started.** `Initialize` runs in its own goroutine
(/repo/cmd/omegaup-grader/main.go:217) and reads the directory after the first ephemeral run was accepted: the
run's directory is then added twice. As soon as one of the two is evicted, the cache holds an entry that `Get`
denies and whose directory is gone, and its size still counts. -/
theorem C33_broken_by_startup :
    ∃ (as : List Act) (w : World), Fair exRoot [] as ∧ run exRoot (start 10 []) as = some w ∧
      (∃ e ∈ w.mgr.entries, e.path = Path.join [exRoot, exName 1]) ∧
      get exRoot w.mgr (exName 1) = none ∧
      Path.join [exRoot, exName 1] ∉ w.disk := by
  refine ⟨[.create (exName 1), .scan [exPath 1], .initAdd (some 1) (fun _ => true) true,
    .commit (exPath 1) (some 3) (fun _ => true), .create (exName 2),
    .commit (exPath 2) (some 7) (fun _ => true)], ?_⟩
  refine ⟨_, ⟨by simp, by simp, ?_⟩, rfl, ?_, ?_, ?_⟩
  · intro n hn
    simp only [List.mem_cons, Act.create.injEq, reduceCtorEq, List.not_mem_nil, or_false, false_or] at hn
    rcases hn with rfl | rfl <;> decide +kernel
  all_goals decide +kernel

/-! A token is any string: this one leads to the same run, and one that leads out of the directory finds
nothing. -/
example : (run exRoot (start 10 []) exActs).map (fun w =>
    (get exRoot w.mgr (exName 1), get exRoot w.mgr (exName 2), get exRoot w.mgr ("x/../".toList ++ exName 2),
      get exRoot w.mgr "../../../../etc/passwd".toList)) =
    some (none, some (exPath 2), some (exPath 2), none) := by decide +kernel

example : Fair exRoot [] exActs := by
  refine ⟨by simp, by simp, ?_⟩
  intro n hn
  simp only [exActs, List.mem_cons, Act.create.injEq, reduceCtorEq, List.not_mem_nil, or_false, false_or] at hn
  rcases hn with rfl | rfl | rfl <;> decide +kernel

end Quark.Ephemeral
