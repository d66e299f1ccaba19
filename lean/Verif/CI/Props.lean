import Verif.CI.Model
import Mathlib.Tactic.SplitIfs
import Mathlib.Data.List.Perm.Basic
import Mathlib.Tactic.Linarith

namespace Quark.CI

/-! ## C48 -/

/-- The six declared states, by number. -/
def Declared (s : CIState) : Prop := 0 ≤ s ∧ s ≤ 5
instance (s : CIState) : Decidable (Declared s) := inferInstanceAs (Decidable (_ ∧ _))

theorem declared_cases {s : CIState} (h : Declared s) : s = 0 ∨ s = 1 ∨ s = 2 ∨ s = 3 ∨ s = 4 ∨ s = 5 := by
  unfold Declared CIState at *; omega

/-- C48: decoding the encoding of a state gives the state back. -/
theorem C48_roundtrip (s : CIState) (h : Declared s) : unmarshal (marshal s) = s := by
  rcases declared_cases h with rfl | rfl | rfl | rfl | rfl | rfl <;> decide +kernel

/-- C48: distinct states have distinct encodings. -/
theorem C48_injective (s t : CIState) (hs : Declared s) (ht : Declared t) (h : marshal s = marshal t) : s = t := by
  rw [← C48_roundtrip s hs, ← C48_roundtrip t ht, h]

/-- The table the users of the API know. -/
def table : List (CIState × String) :=
  [(0, "\"waiting\""), (1, "\"running\""), (2, "\"skipped\""), (3, "\"error\""), (4, "\"passed\""), (5, "\"failed\"")]

/-- The encoding is the table (also what an integer outside the six states is encoded as). -/
theorem C48_encoding (s : CIState) :
    (∀ t, (s, t) ∈ table → marshal s = t) ∧ (¬ Declared s → marshal s = "\"failed\"") := by
  constructor
  · intro t ht
    simp only [table, List.mem_cons, Prod.mk.injEq, List.not_mem_nil, or_false] at ht
    rcases ht with ⟨rfl, rfl⟩ | ⟨rfl, rfl⟩ | ⟨rfl, rfl⟩ | ⟨rfl, rfl⟩ | ⟨rfl, rfl⟩ | ⟨rfl, rfl⟩ <;> decide +kernel
  · intro h
    have h5 : ¬ (s = waiting) ∧ ¬ (s = running) ∧ ¬ (s = skipped) ∧ ¬ (s = error) ∧ ¬ (s = passed) := by
      refine ⟨?_, ?_, ?_, ?_, ?_⟩ <;> (rintro rfl; exact h (by decide))
    obtain ⟨a, b, c, d, e⟩ := h5
    unfold marshal CIState.string
    rw [if_neg a, if_neg b, if_neg c, if_neg d, if_neg e]
    decide +kernel

/-- The decoder is total, always yields a declared state, the one of the table if the text is there and `failed` for
every other text. -/
theorem C48_decoding (d : String) :
    Declared (unmarshal d) ∧ (∀ s, (s, d) ∈ table → unmarshal d = s) ∧
      ((∀ s, (s, d) ∉ table) → unmarshal d = failed) := by
  refine ⟨?_, ?_, ?_⟩
  · unfold unmarshal; split_ifs <;> decide
  · intro s hs
    simp only [table, List.mem_cons, Prod.mk.injEq, List.not_mem_nil, or_false] at hs
    rcases hs with ⟨rfl, rfl⟩ | ⟨rfl, rfl⟩ | ⟨rfl, rfl⟩ | ⟨rfl, rfl⟩ | ⟨rfl, rfl⟩ | ⟨rfl, rfl⟩ <;> decide +kernel
  · intro h
    unfold unmarshal
    have g : ∀ s t, (s, t) ∈ table → d ≠ t := fun s t hm e => h s (e ▸ hm)
    rw [if_neg (g 0 _ (by simp [table])), if_neg (g 1 _ (by simp [table])), if_neg (g 2 _ (by simp [table])),
      if_neg (g 3 _ (by simp [table])), if_neg (g 4 _ (by simp [table]))]

example : Declared 3 ∧ marshal 3 = "\"error\"" ∧ unmarshal "\"error\"" = error ∧ unmarshal "null" = failed := by
  decide +kernel

/-! ## C50 -/

/-- What the author of the problem declared for a test, and when a result meets it. -/
def Meets (t : Test) (r : Result) : Prop :=
  match t.solution with
  | some s =>
    (s.verdict = "" ∨ r.verdict = s.verdict) ∧ (∀ sr, s.scoreRange = some sr → sr.min ≤ r.score ∧ r.score ≤ sr.max)
  | none => r.verdict = "AC"

/-- C50: a finished test has passed iff the result meets what was declared, and has failed otherwise. -/
theorem C50_pass_iff (t : Test) (r : Result) :
    (judge t r = passed ↔ Meets t r) ∧ (judge t r = failed ↔ ¬ Meets t r) := by
  have pf : passed ≠ failed := by decide
  have key : (judge t r = passed ∧ Meets t r) ∨ (judge t r = failed ∧ ¬ Meets t r) := by
    obtain ⟨sol⟩ := t
    cases sol with
    | none =>
      by_cases h : r.verdict = "AC"
      · left; simp [judge, Meets, h]
      · right; simp [judge, Meets, h]
    | some st =>
      obtain ⟨v, sr⟩ := st
      cases sr with
      | none =>
        by_cases h : v ≠ "" ∧ v ≠ r.verdict
        · right
          refine ⟨by simp [judge, h], ?_⟩
          rintro ⟨h1, -⟩
          rcases h1 with h1 | h1
          · exact h.1 h1
          · exact h.2 h1.symm
        · left
          refine ⟨by simp only [judge]; rw [if_neg h], ?_, by simp⟩
          by_cases h0 : v = ""
          · exact Or.inl h0
          · exact Or.inr (Classical.byContradiction fun hne => h ⟨h0, fun e => hne e.symm⟩)
      | some sr =>
        by_cases h2 : r.score < sr.min ∨ sr.max < r.score
        · right
          refine ⟨by simp only [judge]; rw [if_pos h2], ?_⟩
          rintro ⟨-, h3⟩
          have := h3 sr rfl
          rcases h2 with h2 | h2 <;> linarith
        · have h2' : sr.min ≤ r.score ∧ r.score ≤ sr.max := by
            constructor
            · by_contra hc; exact h2 (Or.inl (by linarith))
            · by_contra hc; exact h2 (Or.inr (by linarith))
          by_cases h : v ≠ "" ∧ v ≠ r.verdict
          · right
            refine ⟨by simp only [judge]; rw [if_neg h2, if_pos h], ?_⟩
            rintro ⟨h1, -⟩
            rcases h1 with h1 | h1
            · exact h.1 h1
            · exact h.2 h1.symm
          · left
            refine ⟨by simp only [judge]; rw [if_neg h2, if_neg h], ?_, ?_⟩
            · by_cases h0 : v = ""
              · exact Or.inl h0
              · exact Or.inr (Classical.byContradiction fun hne => h ⟨h0, fun e => hne e.symm⟩)
            · intro sr' e; cases e; exact h2'
  rcases key with ⟨h1, h2⟩ | ⟨h1, h2⟩
  · rw [h1]; exact ⟨⟨fun _ => h2, fun _ => rfl⟩, ⟨fun e => absurd e pf, fun n => absurd h2 n⟩⟩
  · rw [h1]; exact ⟨⟨fun e => absurd e pf.symm, fun n => absurd n h2⟩, ⟨fun _ => h2, fun _ => rfl⟩⟩

/-- A test declaring "PA with a score between 1/4 and 1/2". -/
def sampleTest : Test := ⟨some ⟨"PA", some ⟨1/4, 1/2⟩⟩⟩
example : Meets sampleTest ⟨"PA", 1/2⟩ ∧ ¬ Meets sampleTest ⟨"PA", 3/4⟩ ∧ ¬ Meets sampleTest ⟨"WA", 1/2⟩ := by
  have e : ("WA" : String) ≠ "PA" := by decide
  have e' : ("PA" : String) ≠ "" := by decide
  refine ⟨⟨Or.inr rfl, ?_⟩, ?_, ?_⟩
  · intro sr h; cases h; norm_num
  · rintro ⟨-, h⟩
    have := (h _ rfl).2
    norm_num at this
  · rintro ⟨h | h, -⟩
    · exact e' h
    · exact e h

/-! ## C49 -/

/-- A test of the run errored / finished without meeting what was declared. -/
def Errored (x : Test × Outcome) : Prop := x.2 = .err
def Missed (x : Test × Outcome) : Prop := ∃ r, x.2 = .done r ∧ ¬ Meets x.1 r

theorem judge_cases (t : Test) (r : Result) : judge t r = passed ∨ judge t r = failed := by
  by_cases h : Meets t r
  · exact Or.inl ((C50_pass_iff t r).1.2 h)
  · exact Or.inr ((C50_pass_iff t r).2.2 h)

theorem runTests_error (l : List (Test × Outcome)) : (runTests error l).2 = error := by
  induction l with
  | nil => rfl
  | cons x l ih =>
    obtain ⟨t, o⟩ := x
    cases o with
    | err => exact ih
    | done r =>
      show (runTests (if error = passed then judge t r else error) l).2 = error
      rw [if_neg (by decide)]; exact ih

theorem runTests_failed (l : List (Test × Outcome)) :
    ((∃ x ∈ l, Errored x) → (runTests failed l).2 = error) ∧
    ((¬ ∃ x ∈ l, Errored x) → (runTests failed l).2 = failed) := by
  induction l with
  | nil => exact ⟨fun ⟨x, h, _⟩ => absurd h List.not_mem_nil, fun _ => rfl⟩
  | cons x l ih =>
    obtain ⟨t, o⟩ := x
    cases o with
    | err =>
      exact ⟨fun _ => runTests_error l, fun h => absurd ⟨(t, .err), List.mem_cons_self, rfl⟩ h⟩
    | done r =>
      have e : (runTests failed ((t, Outcome.done r) :: l)).2 = (runTests failed l).2 := by
        show (runTests (if failed = passed then judge t r else failed) l).2 = _
        rw [if_neg (by decide)]
      rw [e]
      constructor
      · rintro ⟨x, hx, he⟩
        rcases List.mem_cons.1 hx with rfl | hx'
        · cases he
        · exact ih.1 ⟨x, hx', he⟩
      · intro h
        exact ih.2 fun ⟨x, hx, he⟩ => h ⟨x, List.mem_cons_of_mem _ hx, he⟩

/-- C49: the outcome of a CI run. -/
theorem C49_final_state (l : List (Test × Outcome)) :
    ((∃ x ∈ l, Errored x) → (processTests l).2 = error) ∧
    ((¬ ∃ x ∈ l, Errored x) → (∃ x ∈ l, Missed x) → (processTests l).2 = failed) ∧
    ((¬ ∃ x ∈ l, Errored x) → (¬ ∃ x ∈ l, Missed x) → (processTests l).2 = passed) := by
  unfold processTests
  induction l with
  | nil =>
    exact ⟨fun ⟨x, h, _⟩ => absurd h List.not_mem_nil, fun _ ⟨x, h, _⟩ => absurd h List.not_mem_nil, fun _ _ => rfl⟩
  | cons x l ih =>
    obtain ⟨t, o⟩ := x
    cases o with
    | err =>
      exact ⟨fun _ => runTests_error l, fun h => absurd ⟨(t, .err), List.mem_cons_self, rfl⟩ h,
        fun h => absurd ⟨(t, .err), List.mem_cons_self, rfl⟩ h⟩
    | done r =>
      have e : (runTests passed ((t, Outcome.done r) :: l)).2 = (runTests (judge t r) l).2 := by
        show (runTests (if passed = passed then judge t r else passed) l).2 = _
        rw [if_pos rfl]
      rw [e]
      have hE : (∃ x ∈ (t, Outcome.done r) :: l, Errored x) ↔ ∃ x ∈ l, Errored x := by
        constructor
        · rintro ⟨x, hx, he⟩
          rcases List.mem_cons.1 hx with rfl | hx'
          · cases he
          · exact ⟨x, hx', he⟩
        · rintro ⟨x, hx, he⟩; exact ⟨x, List.mem_cons_of_mem _ hx, he⟩
      rw [hE]
      by_cases hm : Meets t r
      · have hM : (∃ x ∈ (t, Outcome.done r) :: l, Missed x) ↔ ∃ x ∈ l, Missed x := by
          constructor
          · rintro ⟨x, hx, he⟩
            rcases List.mem_cons.1 hx with rfl | hx'
            · obtain ⟨r', h1, h2⟩ := he; cases h1; exact absurd hm h2
            · exact ⟨x, hx', he⟩
          · rintro ⟨x, hx, he⟩; exact ⟨x, List.mem_cons_of_mem _ hx, he⟩
        rw [hM, (C50_pass_iff t r).1.2 hm]; exact ih
      · rw [(C50_pass_iff t r).2.2 hm]
        exact ⟨(runTests_failed l).1, fun h _ => (runTests_failed l).2 h,
          fun _ h => absurd ⟨(t, .done r), List.mem_cons_self, r, rfl, hm⟩ h⟩

/-- C49: the order of the tests does not matter. -/
theorem C49_order_irrelevant (l l' : List (Test × Outcome)) (h : l.Perm l') :
    (processTests l).2 = (processTests l').2 := by
  have hx : ∀ P : Test × Outcome → Prop, (∃ x ∈ l, P x) ↔ ∃ x ∈ l', P x := fun P => by
    constructor
    · rintro ⟨x, hx, hp⟩; exact ⟨x, h.mem_iff.1 hx, hp⟩
    · rintro ⟨x, hx, hp⟩; exact ⟨x, h.mem_iff.2 hx, hp⟩
  obtain ⟨a1, a2, a3⟩ := C49_final_state l
  obtain ⟨b1, b2, b3⟩ := C49_final_state l'
  by_cases hE : ∃ x ∈ l, Errored x
  · rw [a1 hE, b1 ((hx _).1 hE)]
  · by_cases hM : ∃ x ∈ l, Missed x
    · rw [a2 hE hM, b2 (fun c => hE ((hx _).2 c)) ((hx _).1 hM)]
    · rw [a3 hE hM, b3 (fun c => hE ((hx _).2 c)) (fun c => hM ((hx _).2 c))]

/-- C49: each test's own state in the report, in order: error, passed or failed as the test did. -/
theorem C49_test_states (l : List (Test × Outcome)) :
    List.Forall₂ (fun (x : Test × Outcome) (s : CIState) =>
      (Errored x → s = error) ∧ (Missed x → s = failed) ∧ (¬ Errored x → ¬ Missed x → s = passed)) l (processTests l).1 := by
  unfold processTests
  suffices h : ∀ fs, List.Forall₂ (fun (x : Test × Outcome) (s : CIState) =>
      (Errored x → s = error) ∧ (Missed x → s = failed) ∧ (¬ Errored x → ¬ Missed x → s = passed)) l (runTests fs l).1 from
    h passed
  intro fs
  induction l generalizing fs with
  | nil => exact .nil
  | cons x l ih =>
    obtain ⟨t, o⟩ := x
    refine .cons ?_ (ih _)
    cases o with
    | err => exact ⟨fun _ => rfl, fun ⟨r, h, _⟩ => (by cases h), fun h => absurd rfl h⟩
    | done r =>
      refine ⟨fun h => (by cases h), ?_, ?_⟩
      · rintro ⟨r', h1, h2⟩; cases h1; exact (C50_pass_iff t r).2.2 h2
      · intro _ h; refine (C50_pass_iff t r).1.2 (Classical.byContradiction fun hn => h ⟨r, rfl, hn⟩)

/-- A run whose second test fails and whose third errors is an error whichever comes first. -/
example : (processTests [(⟨none⟩, .done ⟨"AC", 1⟩), (⟨none⟩, .done ⟨"WA", 0⟩), (⟨none⟩, .err)]).2 = 3 ∧
    (processTests [(⟨none⟩, .err), (⟨none⟩, .done ⟨"WA", 0⟩), (⟨none⟩, .done ⟨"AC", 1⟩)]).2 = 3 ∧
    (processTests [(⟨none⟩, .done ⟨"AC", 1⟩), (⟨none⟩, .done ⟨"WA", 0⟩)]).2 = 5 := by
  decide +kernel

/-! ## C51 -/

/-- A report that is not going to change any more: skipped, error, passed or failed. -/
def Final (r : CIState) : Prop := r = 2 ∨ r = 3 ∨ r = 4 ∨ r = 5
instance (r : CIState) : Decidable (Final r) := inferInstanceAs (Decidable (_ ∨ _))

/-- No report, or a final one. -/
def Settled (o : Option CIState) : Prop := ∀ r, o = some r → Final r

/-- What the proof has to exclude. -/
def Calm (s : Dir) : Act → Prop
  -- the last write of a run does not fail
  | .finish _ ok => ok = true ∧ s.dir = true
  -- a request that saw no report does not get to create the stamp after another has finished the run meanwhile
  | .acquire => s.stamp = false → s.report = none
  -- `RemoveAll` does not unlink the stamp of a request that is being served or is in the queue
  | .unlinkStamp => s.stampers = 0 ∧ s.queue = 0
  -- the process is not killed when `RemoveAll` has unlinked the stamp and not yet an unfinished report
  | .kill => ∀ r, s.worker = .removing false true → s.report = some r → Final r
  | _ => True

/-- A history in which that does not happen. -/
def CalmRun (s : Dir) : List Act → Prop
  | [] => True
  | a :: as => Calm s a ∧ ∀ s', step s a = some s' → CalmRun s' as

structure Inv (s : Dir) : Prop where
  unstamped : s.stamp = false → s.worker ≠ .removing false true → Settled s.report
  held : 0 < s.stampers + s.queue → s.stamp = true
  working : s.worker = .working ∨ s.worker = .finished → s.stamp = true
  single : s.stampers + s.queue ≤ 1
  alone : s.worker = .working ∨ s.worker = .finished → s.stampers + s.queue = 0
  written : s.worker = .finished → Settled s.report
  remStamp : ∀ b, s.worker = .removing true b → s.stamp = true
  remReport : ∀ a, s.worker = .removing a true → s.report ≠ none
  remNone : ∀ a, s.worker = .removing a false → s.queue = 0 → Settled s.report

theorem settled_none : Settled none := fun _ h => by cases h
theorem settled_some {r : CIState} (h : Final r) : Settled (some r) := fun _ e => by cases e; exact h

theorem inv_init : Inv init := by
  constructor <;> simp [init, settled_none]

/-- The start of a `RemoveAll`. -/
theorem inv_begin {dir stamp up scanned' cached' : Bool} {report : Option CIState} {lookers stampers queue : Nat}
    {worker : Worker}
    (i1 : stamp = false → worker ≠ .removing false true → Settled report)
    (i2 : 0 < stampers + queue → stamp = true) (i4 : stampers + queue ≤ 1) (hw : worker ≠ .removing false true) :
    Inv { dir := dir, stamp := stamp, report := report, up := up, scanned := scanned', cached := cached',
          lookers := lookers, stampers := stampers, queue := queue, worker := .removing stamp report.isSome } := by
  refine ⟨fun h _ => i1 h hw, i2, (fun h => by rcases h with h | h <;> cases h), i4,
    (fun h => by rcases h with h | h <;> cases h), (fun h => by cases h), ?_, ?_, ?_⟩
  · intro b h
    have := (Worker.removing.inj h).1
    exact this
  · intro a h
    have := (Worker.removing.inj h).2
    dsimp only at this ⊢
    rintro rfl
    cases this
  · intro a h _
    have := (Worker.removing.inj h).2
    cases report with
    | none => exact settled_none
    | some r => cases this

theorem inv_step {s s' : Dir} {a : Act} (hI : Inv s) (hc : Calm s a) (hs : step s a = some s') : Inv s' := by
  obtain ⟨i1, i2, i3, i4, i5, i6, i7, i8, i9⟩ := hI
  obtain ⟨dir, stamp, report, up, scanned, cached, lookers, stampers, queue, worker⟩ := s
  try dsimp only at i1 i2 i3 i4 i5 i6 i7 i8 i9
  cases a with
  | look =>
    simp only [step] at hs
    split_ifs at hs
    cases hs
    exact ⟨i1, i2, i3, i4, i5, i6, i7, i8, i9⟩
  | acquire =>
    simp only [step] at hs
    split_ifs at hs with h1 h2
    · cases hs; exact ⟨i1, i2, i3, i4, i5, i6, i7, i8, i9⟩
    · cases hs
      have hst : stamp = false := by
        cases stamp with
        | false => rfl
        | true => exact absurd (Or.inl rfl) h2
      subst hst
      have hr : report = none := hc rfl
      subst hr
      have h0 : stampers + queue = 0 := by
        by_contra hne
        have := i2 (by omega)
        cases this
      refine ⟨(fun h => by cases h), fun _ => rfl, fun _ => rfl, (by (try dsimp only); omega), (fun h => by cases i3 h),
        fun _ => settled_none, fun _ _ => rfl, i8, fun _ _ _ => settled_none⟩
  | firstWrite ok =>
    simp only [step] at hs
    split_ifs at hs with h1 h2
    · cases hs
      have hst : stamp = true := i2 (by have := h1.2; (try dsimp only at this); omega)
      subst hst
      have h3 := h1.2
      try dsimp only at h3
      have hnw : ¬ (worker = .working ∨ worker = .finished) := fun h => by have := i5 h; omega
      refine ⟨(fun h => by cases h), fun _ => rfl, fun _ => rfl, (by (try dsimp only); omega), fun h => absurd h hnw,
        fun h => absurd (Or.inr h) hnw, fun _ _ => rfl, (fun _ _ h => by cases h), ?_⟩
      intro _ _ h; (try dsimp only at h); omega
    · cases hs
      refine ⟨i1, ?_, i3, (by (try dsimp only); omega), ?_, i6, i7, i8, i9⟩
      · intro h; (try dsimp only at h); exact i2 (by omega)
      · intro h; have := i5 h; (try dsimp only); omega
  | take =>
    simp only [step] at hs
    split_ifs at hs with h1
    cases hs
    obtain ⟨_, _, h3, h4⟩ := h1
    try dsimp only at h3 h4
    subst h3
    have hst : stamp = true := i2 (by omega)
    subst hst
    refine ⟨(fun h => by cases h), fun _ => rfl, fun _ => rfl, (by (try dsimp only); omega), (fun _ => by (try dsimp only); omega),
      (fun h => by cases h), (fun _ h => by cases h), (fun _ h => by cases h), (fun _ h => by cases h)⟩
  | progress r =>
    simp only [step] at hs
    split_ifs at hs with h1
    cases hs
    obtain ⟨_, h3, _⟩ := h1
    try dsimp only at h3
    subst h3
    have hst : stamp = true := i3 (Or.inl rfl)
    subst hst
    exact ⟨(fun h => by cases h), fun _ => rfl, fun _ => rfl, i4, i5,
      (fun h => by cases h), (fun _ h => by cases h), (fun _ h => by cases h), (fun _ h => by cases h)⟩
  | abort r ok =>
    simp only [step] at hs
    split_ifs at hs with h1 h2
    all_goals
      cases hs
      obtain ⟨_, h3, _⟩ := h1
      try dsimp only at h3
      subst h3
      have hst : stamp = true := i3 (Or.inl rfl)
      subst hst
      exact ⟨(fun h => by cases h), fun _ => rfl, fun _ => rfl, i4, (fun h => by rcases h with h | h <;> cases h),
        (fun h => by cases h), (fun _ h => by cases h), (fun _ h => by cases h), (fun _ h => by cases h)⟩
  | finish r ok =>
    obtain ⟨hok, hd⟩ := hc
    try dsimp only at hd
    subst hok hd
    simp only [step] at hs
    split_ifs at hs with h1 h2
    · cases hs
      obtain ⟨_, h3, hr⟩ := h1
      try dsimp only at h3
      subst h3
      have hst : stamp = true := i3 (Or.inl rfl)
      subst hst
      have hf : Final r := by
        rcases hr with rfl | rfl | rfl <;> decide
      exact ⟨(fun h => by cases h), fun _ => rfl, fun _ => rfl, i4, fun _ => i5 (Or.inl rfl),
        fun _ => settled_some hf, (fun _ h => by cases h), (fun _ h => by cases h), (fun _ h => by cases h)⟩
    · exact absurd (by simp) h2
  | unstamp ok =>
    simp only [step] at hs
    split_ifs at hs with h1 h2
    all_goals
      cases hs
      obtain ⟨_, h3⟩ := h1
      try dsimp only at h3
      subst h3
      have h0 := i5 (Or.inr rfl)
      have hset := i6 rfl
      exact ⟨fun _ _ => hset, (fun h => by (try dsimp only at h); omega), (fun h => by rcases h with h | h <;> cases h), i4,
        (fun h => by rcases h with h | h <;> cases h), (fun h => by cases h), (fun _ h => by cases h),
        (fun _ h => by cases h), (fun _ h => by cases h)⟩
  | cache =>
    simp only [step] at hs
    split_ifs at hs with h1
    cases hs
    obtain ⟨_, h3⟩ := h1
    try dsimp only at h3
    subst h3
    exact ⟨fun h _ => i1 h (fun h => by cases h), i2, (fun h => by rcases h with h | h <;> cases h), i4,
      (fun h => by rcases h with h | h <;> cases h), (fun h => by cases h), (fun _ h => by cases h),
      (fun _ h => by cases h), (fun _ h => by cases h)⟩
  | refuse =>
    simp only [step] at hs
    split_ifs at hs with h1
    cases hs
    obtain ⟨_, h3⟩ := h1
    try dsimp only at h3
    subst h3
    exact inv_begin i1 i2 i4 (by decide)
  | evict =>
    simp only [step] at hs
    split_ifs at hs with h1
    cases hs
    obtain ⟨_, h3, _⟩ := h1
    try dsimp only at h3
    subst h3
    exact inv_begin i1 i2 i4 (by decide)
  | unlinkStamp =>
    obtain ⟨c1, c2⟩ := hc
    try dsimp only at c1 c2
    subst c1 c2
    simp only [step] at hs
    split at hs
    case h_2 => cases hs
    case h_1 b =>
      split_ifs at hs
      cases hs
      refine ⟨?_, (fun h => by cases h), (fun h => by rcases h with h | h <;> cases h), i4,
        (fun h => by rcases h with h | h <;> cases h), (fun h => by cases h), (fun _ h => by cases h), ?_, ?_⟩
      · intro _ h
        cases b with
        | true => exact absurd rfl h
        | false => exact i9 true rfl rfl
      · intro _ h; cases h; exact i8 true rfl
      · intro _ h h'; cases h; exact i9 true rfl h'
  | unlinkReport =>
    simp only [step] at hs
    split at hs
    case h_2 => cases hs
    case h_1 a =>
      split_ifs at hs
      cases hs
      refine ⟨fun _ _ => settled_none, i2, (fun h => by rcases h with h | h <;> cases h), i4,
        (fun h => by rcases h with h | h <;> cases h), (fun h => by cases h), ?_, (fun _ h => by cases h),
        fun _ _ _ => settled_none⟩
      intro b h
      cases h
      exact i7 true rfl
  | endRemove =>
    simp only [step] at hs
    split at hs
    case h_2 => cases hs
    case h_1 =>
      split_ifs at hs
      cases hs
      exact ⟨fun h _ => i1 h (fun h => by cases h), i2, (fun h => by rcases h with h | h <;> cases h), i4,
        (fun h => by rcases h with h | h <;> cases h), (fun h => by cases h), (fun _ h => by cases h),
        (fun _ h => by cases h), (fun _ h => by cases h)⟩
  | kill =>
    simp only [step] at hs
    split_ifs at hs
    cases hs
    refine ⟨?_, (fun h => by simp at h), (fun h => by rcases h with h | h <;> cases h), (by simp),
      (fun h => by rcases h with h | h <;> cases h), (fun h => by cases h), (fun _ h => by cases h),
      (fun _ h => by cases h), (fun _ h => by cases h)⟩
    intro h _
    by_cases hw : worker = .removing false true
    · exact fun r hr => hc r hw hr
    · exact i1 h hw
  | start =>
    simp only [step] at hs
    split_ifs at hs
    cases hs
    exact ⟨i1, i2, i3, i4, i5, i6, i7, i8, i9⟩
  | scan =>
    simp only [step] at hs
    split_ifs at hs with h1 h2 h3
    · cases hs
      obtain ⟨_, _, h3⟩ := h1
      try dsimp only at h2 h3
      subst h2 h3
      exact inv_begin i1 i2 i4 (by decide)
    · cases hs; exact ⟨i1, i2, i3, i4, i5, i6, i7, i8, i9⟩
    · cases hs; exact ⟨i1, i2, i3, i4, i5, i6, i7, i8, i9⟩
  | scanRefuse =>
    simp only [step] at hs
    split_ifs at hs with h1
    cases hs
    obtain ⟨_, _, h3, _, h4⟩ := h1
    try dsimp only at h3 h4
    subst h3
    have hst : stamp = false := by simpa using h4
    subst hst
    exact inv_begin i1 i2 i4 (by decide)

theorem inv_run {s s' : Dir} {as : List Act} (hI : Inv s) (hc : CalmRun s as) (hs : run s as = some s') : Inv s' := by
  induction as generalizing s with
  | nil => cases hs; exact hI
  | cons a as ih =>
    simp only [run, Option.bind_eq_some_iff] at hs
    obtain ⟨s1, h1, h2⟩ := hs
    exact ih (inv_step hI hc.1 h1) (hc.2 s1 h1) h2

/-- The actions of the start-up scan itself. -/
def ScanAct (a : Act) : Prop :=
  a = .scan ∨ a = .scanRefuse ∨ a = .unlinkStamp ∨ a = .unlinkReport ∨ a = .endRemove

theorem run_append (s : Dir) (as bs : List Act) : run s (as ++ bs) = (run s as).bind (run · bs) := by
  induction as generalizing s with
  | nil => rfl
  | cons a as ih =>
    show (step s a).bind _ = ((step s a).bind _).bind _
    cases step s a with
    | none => rfl
    | some s1 => exact ih s1

theorem scanAct_quiet {s s' : Dir} {a : Act} (ha : ScanAct a) (hs : step s a = some s') :
    s'.stampers = s.stampers ∧ s'.queue = s.queue := by
  rcases ha with rfl | rfl | rfl | rfl | rfl
  all_goals
    simp only [step] at hs
    first
      | (split_ifs at hs <;> cases hs <;> exact ⟨rfl, rfl⟩)
      | (split at hs
         case h_2 => cases hs
         case h_1 => split_ifs at hs; cases hs; exact ⟨rfl, rfl⟩)

theorem scan_inv {s s' : Dir} {as : List Act} (hI : Inv s) (h0 : s.stampers = 0 ∧ s.queue = 0)
    (ha : ∀ a ∈ as, ScanAct a) (hs : run s as = some s') : Inv s' ∧ s'.stampers = 0 ∧ s'.queue = 0 := by
  induction as generalizing s with
  | nil => cases hs; exact ⟨hI, h0⟩
  | cons a as ih =>
    simp only [run, Option.bind_eq_some_iff] at hs
    obtain ⟨s1, h1, h2⟩ := hs
    have ha0 := ha a List.mem_cons_self
    have q := scanAct_quiet ha0 h1
    refine ih (inv_step hI ?_ h1) ⟨q.1.trans h0.1, q.2.trans h0.2⟩ (fun b hb => ha b (List.mem_cons_of_mem _ hb)) h2
    rcases ha0 with rfl | rfl | rfl | rfl | rfl <;> first | trivial | exact h0

/-- What the scan does with the stamp. -/
def ScanPhase (s : Dir) : Prop :=
  match s.worker with
  | .removing a _ => a = s.stamp ∧ s.scanned = true
  | .idle => s.scanned = true → s.stamp = false
  | _ => False

theorem scanPhase_step {s s' : Dir} {a : Act} (hP : ScanPhase s) (ha : ScanAct a) (hs : step s a = some s') :
    ScanPhase s' := by
  obtain ⟨dir, stamp, report, up, scanned, cached, lookers, stampers, queue, worker⟩ := s
  rcases ha with rfl | rfl | rfl | rfl | rfl
  · simp only [step] at hs
    split_ifs at hs with h1 h2 h3
    · cases hs; exact ⟨h2.symm, rfl⟩
    · cases hs; obtain ⟨_, _, hw⟩ := h1; (try dsimp only at hw); subst hw; exact fun _ => by simpa using h2
    · cases hs; obtain ⟨_, _, hw⟩ := h1; (try dsimp only at hw); subst hw; exact fun _ => by simpa using h2
  · simp only [step] at hs
    split_ifs at hs with h1
    cases hs
    exact ⟨by have := h1.2.2.2.2; cases stamp with | false => rfl | true => exact absurd rfl this, rfl⟩
  · simp only [step] at hs
    split at hs
    case h_2 => cases hs
    case h_1 => split_ifs at hs; cases hs; exact ⟨rfl, hP.2⟩
  · simp only [step] at hs
    split at hs
    case h_2 => cases hs
    case h_1 => split_ifs at hs; cases hs; exact hP
  · simp only [step] at hs
    split at hs
    case h_2 => cases hs
    case h_1 => split_ifs at hs; cases hs; exact fun _ => hP.1.symm

theorem scan_stamp {s s' : Dir} {as : List Act} (hw : s.worker = .idle) (hn : s.scanned = false)
    (ha : ∀ a ∈ as, ScanAct a) (hs : run s as = some s') (hidle : s'.worker = .idle) (hsc : s'.scanned = true) :
    s'.stamp = false := by
  have hP : ScanPhase s := by unfold ScanPhase; rw [hw]; exact fun h => by rw [hn] at h; cases h
  have : ScanPhase s' := by
    clear hw hn hidle hsc
    induction as generalizing s with
    | nil => cases hs; exact hP
    | cons a as ih =>
      simp only [run, Option.bind_eq_some_iff] at hs
      obtain ⟨s1, h1, h2⟩ := hs
      exact ih (fun b hb => ha b (List.mem_cons_of_mem _ hb)) h2 (scanPhase_step hP (ha a List.mem_cons_self) h1)
  unfold ScanPhase at this
  rw [hidle] at this
  exact this hsc

theorem run_kill_start {s s' : Dir} (h : run s [.kill, .start] = some s') :
    s' = { s with scanned := false, cached := false, lookers := 0, stampers := 0, queue := 0, worker := .idle } := by
  obtain ⟨dir, stamp, report, up, scanned, cached, lookers, stampers, queue, worker⟩ := s
  cases up with
  | false => simp [run, step] at h
  | true => simp [run, step] at h; exact h.symm

/-- C51, as far as it holds: after any calm history, in which the process may have been killed and restarted any number
of times, when it is killed (at any point that is calm) and restarted and the scan has been through the directory with
nothing else going on, there is no report or a final one. -/
theorem C51_unfinished_do_not_survive_partial (hist scanning : List Act) (s s' : Dir)
    (h1 : run init hist = some s) (hc : CalmRun init hist) (hk : Calm s .kill)
    (h2 : run s ([.kill, .start] ++ scanning) = some s')
    (ha : ∀ a ∈ scanning, ScanAct a) (hidle : s'.worker = .idle) (hsc : s'.scanned = true) :
    ∀ r, s'.report = some r → Final r := by
  rw [run_append, Option.bind_eq_some_iff] at h2
  obtain ⟨s1, hr, h3⟩ := h2
  have hI := inv_run inv_init hc h1
  have e1 := run_kill_start hr
  have hI1 : Inv s1 := by
    refine inv_run (as := [.kill, .start]) hI ⟨hk, fun _ _ => ⟨trivial, fun _ _ => trivial⟩⟩ hr
  have q1 : s1.stampers = 0 ∧ s1.queue = 0 := by rw [e1]; exact ⟨rfl, rfl⟩
  obtain ⟨hI', -, -⟩ := scan_inv hI1 q1 ha h3
  have hst : s'.stamp = false := scan_stamp (by rw [e1]) (by rw [e1]) ha h3 hidle hsc
  exact hI'.unstamped hst (by rw [hidle]; decide)

/-- What the scan does with a directory, seen from the one, `s0`, it found. -/
def ScanFate (s0 s : Dir) : Prop :=
  match s.worker with
  | .removing a b => a = s.stamp ∧ b = s.report.isSome ∧ s.scanned = true ∧ s.dir = true ∧ s.up = true
  | .idle => s.up = true ∧
    if s.scanned then (s.stamp = false ∧ s.report = none ∧ s.dir = false) ∨
      (s0.stamp = false ∧ s.stamp = false ∧ s.report = s0.report ∧ s.dir = s0.dir)
    else s.stamp = s0.stamp ∧ s.report = s0.report ∧ s.dir = s0.dir
  | _ => False

theorem scanFate_step {s0 s s' : Dir} {a : Act} (hd : s0.stamp = true ∨ s0.report.isSome = true → s0.dir = true)
    (hP : ScanFate s0 s) (ha : ScanAct a) (hs : step s a = some s') : ScanFate s0 s' := by
  obtain ⟨dir, stamp, report, up, scanned, cached, lookers, stampers, queue, worker⟩ := s
  rcases ha with rfl | rfl | rfl | rfl | rfl
  · simp only [step] at hs
    split_ifs at hs with h1 h2 h3
    all_goals
      obtain ⟨hu, hn, hw⟩ := h1
      subst hw hu
      have hn : scanned = false := by simpa using hn
      subst hn
      obtain ⟨-, e1, e2, e3⟩ : true = true ∧ stamp = s0.stamp ∧ report = s0.report ∧ dir = s0.dir := hP
      subst e2 e3 e1
      cases hs
    · exact ⟨h2.symm, rfl, rfl, hd (Or.inl h2), rfl⟩
    · exact ⟨rfl, Or.inr ⟨by simpa using h2, by simpa using h2, rfl, rfl⟩⟩
    · exact ⟨rfl, Or.inr ⟨by simpa using h2, by simpa using h2, rfl, rfl⟩⟩
  · simp only [step] at hs
    split_ifs at hs with h1
    obtain ⟨hu, hn, hw, hdir, hst⟩ := h1
    cases hs
    exact ⟨by simpa using hst, rfl, rfl, hdir, hu⟩
  · simp only [step] at hs
    split at hs
    case h_2 => cases hs
    case h_1 => split_ifs at hs; cases hs; exact ⟨rfl, hP.2⟩
  · simp only [step] at hs
    split at hs
    case h_2 => cases hs
    case h_1 => split_ifs at hs; cases hs; exact ⟨hP.1, rfl, hP.2.2⟩
  · simp only [step] at hs
    split at hs
    case h_2 => cases hs
    case h_1 =>
      split_ifs at hs
      cases hs
      obtain ⟨h1, h2, h3, h4, h5⟩ := hP
      dsimp only at h1 h2 h3 h4 h5
      subst h1 h3 h4 h5
      have hr : report = none := by cases report with | none => rfl | some r => cases h2
      subst hr
      exact ⟨rfl, Or.inl ⟨rfl, rfl, rfl⟩⟩

/-- In every history whatsoever, files are only found in an existing directory. -/
theorem dir_step {s s' : Dir} {a : Act} (hd : s.stamp = true ∨ s.report.isSome = true → s.dir = true)
    (hs : step s a = some s') : s'.stamp = true ∨ s'.report.isSome = true → s'.dir = true := by
  obtain ⟨dir, stamp, report, up, scanned, cached, lookers, stampers, queue, worker⟩ := s
  cases a <;> simp only [step] at hs <;> (try split at hs) <;> (try split_ifs at hs) <;> (try cases hs) <;>
    (try simp_all)

theorem dir_run {s s' : Dir} {as : List Act} (hd : s.stamp = true ∨ s.report.isSome = true → s.dir = true)
    (hs : run s as = some s') : s'.stamp = true ∨ s'.report.isSome = true → s'.dir = true := by
  induction as generalizing s with
  | nil => cases hs; exact hd
  | cons a as ih =>
    simp only [run, Option.bind_eq_some_iff] at hs
    obtain ⟨s1, h1, h2⟩ := hs
    exact ih (dir_step hd h1) h2

/-- What the restart does with a directory: a directory with a stamp is removed, so that a new request for the commit
is taken from scratch; one without is kept with its report, or removed as a whole when the cache does not take it. -/
theorem C51_scan_outcome (hist scanning : List Act) (s s' : Dir) (h1 : run init hist = some s)
    (h2 : run s ([.kill, .start] ++ scanning) = some s')
    (ha : ∀ a ∈ scanning, ScanAct a) (hidle : s'.worker = .idle) (hsc : s'.scanned = true) :
    (s.stamp = true → s'.dir = false ∧ s'.stamp = false ∧ s'.report = none ∧
      ∃ t, run s' [.look, .acquire, .firstWrite true] = some t ∧ t.report = some waiting ∧ t.stamp = true ∧
        t.queue = s'.queue + 1) ∧
    (s.stamp = false → s'.stamp = false ∧ (s'.report = s.report ∨ s'.report = none ∧ s'.dir = false)) := by
  have hd := dir_run (s := init) (by simp [init]) h1
  clear h1
  rw [run_append, Option.bind_eq_some_iff] at h2
  obtain ⟨s1, hr, h3⟩ := h2
  have hup : s.up = true := by
    cases hu : s.up with
    | true => rfl
    | false => simp [run, step, hu] at hr
  have e1 := run_kill_start hr
  have hF : ScanFate s s1 := by rw [e1]; exact ⟨hup, rfl, rfl, rfl⟩
  have hF' : ScanFate s s' := by
    clear e1 hr hidle hsc
    induction scanning generalizing s1 with
    | nil => cases h3; exact hF
    | cons a as ih =>
      simp only [run, Option.bind_eq_some_iff] at h3
      obtain ⟨s2, h1, h2⟩ := h3
      exact ih (fun b hb => ha b (List.mem_cons_of_mem _ hb)) s2 h2 (scanFate_step hd hF (ha a List.mem_cons_self) h1)
  unfold ScanFate at hF'
  rw [hidle] at hF'
  simp only [hsc, if_true] at hF'
  obtain ⟨hu', h⟩ := hF'
  constructor
  · intro hst
    rcases h with ⟨h1, h2, h4⟩ | ⟨h1, -⟩
    · refine ⟨h4, h1, h2, ?_⟩
      simp [run, step, hu', h1, h2, h4]
    · rw [hst] at h1; cases h1
  · intro _
    rcases h with ⟨h1, h2, h4⟩ | ⟨-, h1, h2, -⟩
    · exact ⟨h1, Or.inr ⟨h2, h4⟩⟩
    · exact ⟨h1, Or.inl h2⟩

/-- A request served from scratch up to its final report. -/
def goodRun : List Act :=
  [.start, .scan, .look, .acquire, .firstWrite true, .take, .progress waiting, .progress running]

/-- The hypotheses of `C51_unfinished_do_not_survive_partial` are met by a run killed half way … -/
example : ∃ s s', run init goodRun = some s ∧ CalmRun init goodRun ∧ Calm s .kill ∧ s.report = some running ∧
    run s ([.kill, .start] ++ [.scan, .unlinkStamp, .unlinkReport, .endRemove]) = some s' ∧
    s'.worker = .idle ∧ s'.scanned = true ∧ s'.report = none := by
  refine ⟨_, _, rfl, ?_, ?_, by decide, rfl, by decide, by decide, by decide⟩
  · refine ⟨trivial, fun s hs => ⟨trivial, fun s' hs' => ⟨trivial, fun s'' hs'' => ⟨?_, fun _ _ => ⟨trivial, fun _ _ =>
      ⟨trivial, fun _ _ => ⟨trivial, fun _ _ => ⟨trivial, fun _ _ => trivial⟩⟩⟩⟩⟩⟩⟩⟩
    cases hs; cases hs'; cases hs''; exact fun _ => rfl
  · intro r h; exact absurd h (by decide)

/-- … and by one killed after it was finished, whose report is kept. -/
example : ∃ s s', run init (goodRun ++ [.finish passed true, .unstamp true, .cache]) = some s ∧
    s.stamp = false ∧ s.report = some passed ∧ Calm s .kill ∧
    run s ([.kill, .start] ++ [.scan]) = some s' ∧ s'.worker = .idle ∧ s'.scanned = true ∧ s'.report = some passed := by
  refine ⟨_, _, rfl, by decide, by decide, ?_, rfl, by decide, by decide, by decide⟩
  intro r h; exact absurd h (by decide)

/-- The claim without the exclusions. -/
def UnfinishedNeverSurvive : Prop :=
  ∀ (hist scanning : List Act) (s s' : Dir), run init hist = some s →
    run s ([.kill, .start] ++ scanning) = some s' → (∀ a ∈ scanning, ScanAct a) → s'.worker = .idle →
    s'.scanned = true → ∀ r, s'.report = some r → Final r

/-- Each of these histories, none of which is calm, ends with a report in state running or waiting which stays after a
kill, a restart and a complete scan.

First: a kill during the scan itself, when `RemoveAll` has removed the stamp and not yet the report. -/
def killedInScan : List Act := goodRun ++ [.kill, .start, .scan, .unlinkStamp]
/-- Second: the last write fails, which is only logged, and the stamp is removed all the same. -/
def lastWriteFails : List Act := goodRun ++ [.finish passed false, .unstamp true, .cache]
/-- Third: a request arrives between the restart and the scan, which then takes its stamp for a left-over one.  The
directory survives because the report arrives before the directory is removed. -/
def requestDuringScan : List Act :=
  [.start, .look, .acquire, .scan, .unlinkStamp, .firstWrite true, .endRemove, .take, .progress running]
/-- Fourth: a second request looks for the report before it exists and creates its stamp after the first run has
finished: the final report is replaced by an unfinished one, in a directory that may be evicted from the cache; the
eviction removes the stamp first and is killed. -/
def lateSecondRequest : List Act :=
  [.start, .scan, .look, .look, .acquire, .firstWrite true, .take, .progress running, .finish passed true,
    .unstamp true, .cache, .acquire, .firstWrite true, .evict, .unlinkStamp]

theorem C51_false : ¬ UnfinishedNeverSurvive := by
  intro h
  have := h killedInScan [.scan] _ _ rfl rfl (fun a ha => by rcases List.mem_singleton.1 ha with rfl; exact Or.inl rfl)
    (by decide) (by decide) running (by decide)
  exact absurd this (by decide)

theorem C51_false_each (hist : List Act)
    (hm : hist ∈ [killedInScan, lastWriteFails, requestDuringScan, lateSecondRequest]) :
    ∃ s s' r, run init hist = some s ∧ run s ([.kill, .start] ++ [.scan]) = some s' ∧ s'.worker = .idle ∧
      s'.scanned = true ∧ s'.report = some r ∧ ¬ Final r := by
  simp only [List.mem_cons, List.not_mem_nil, or_false] at hm
  rcases hm with rfl | rfl | rfl | rfl
  · exact ⟨_, _, running, rfl, rfl, by decide, by decide, by decide, by decide⟩
  · exact ⟨_, _, running, rfl, rfl, by decide, by decide, by decide, by decide⟩
  · exact ⟨_, _, running, rfl, rfl, by decide, by decide, by decide, by decide⟩
  · exact ⟨_, _, waiting, rfl, rfl, by decide, by decide, by decide, by decide⟩

/-- A failed first write leaves the stamp behind: from then on every request for the commit is refused, until a
restart. -/
theorem C51_failed_first_write :
    ∃ s, run init [.start, .scan, .look, .acquire, .firstWrite false] = some s ∧ s.report = none ∧
      ∀ n : Nat, ∃ t, run s ((List.replicate n [Act.look, Act.acquire]).flatten) = some t ∧ t = s := by
  refine ⟨_, rfl, by decide, fun n => ?_⟩
  induction n with
  | zero => exact ⟨_, rfl, rfl⟩
  | succ n ih =>
    rw [List.replicate_succ, List.flatten_cons, run_append]
    exact ih

end Quark.CI
