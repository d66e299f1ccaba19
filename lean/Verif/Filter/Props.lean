import Verif.Filter.Model
import Verif.Files.Props

namespace Quark.Filter

/-! ### Specification -/

/-- The documented forms of a filter string and what they stand for. -/
inductive Form : Text → Filter → Prop
  | allEvents : Form "/all-events".toList .allEvents
  | user (u : Text) : '/' ∉ u → Form ("/user/".toList ++ u) (.user u)
  | problem (p : Text) : '/' ∉ p → Form ("/problem/".toList ++ p) (.problem p)
  | problemset (n : Text) (k : Int) : parseInt n = some k → Form ("/problemset/".toList ++ n) (.problemset k [])
  | problemsetToken (n : Text) (k : Int) (t : Text) : parseInt n = some k → '/' ∉ t →
      Form ("/problemset/".toList ++ n ++ '/' :: t) (.problemset k t)
  | contest (c : Text) : '/' ∉ c → Form ("/contest/".toList ++ c) (.contest c [])
  | contestToken (c t : Text) : '/' ∉ c → '/' ∉ t → Form ("/contest/".toList ++ c ++ '/' :: t) (.contest c t)

/-- A decimal numeral: an optional sign and digits. -/
inductive Numeral : Text → Int → Prop
  | plain (ds : Text) : ds ≠ [] → (∀ c ∈ ds, '0' ≤ c ∧ c ≤ '9') → Numeral ds (Files.value ds)
  | plus (ds : Text) : ds ≠ [] → (∀ c ∈ ds, '0' ≤ c ∧ c ≤ '9') → Numeral ('+' :: ds) (Files.value ds)
  | minus (ds : Text) : ds ≠ [] → (∀ c ∈ ds, '0' ≤ c ∧ c ≤ '9') → Numeral ('-' :: ds) (-(Files.value ds : Int))

/-- Whether a user with the permissions `v` may see a message. -/
def Entitled (v : Validated) (m : Message) : Prop :=
  v.admin = true ∨ m.isPublic = true ∨ (v.user ≠ [] ∧ m.user = v.user) ∨ m.problem ∈ v.problemAdmin ∨
    m.contest ∈ v.contestAdmin ∨ m.problemset ∈ v.problemsetAdmin

/-- Which messages a filter asks for; `me` is the user who asks. -/
def Wanted (me : Text) (m : Message) : Filter → Prop
  | .allEvents => True
  | .user _ => m.user = me
  | .problem p => m.problem = p
  | .problemset n _ => m.problemset = n
  | .contest c _ => m.contest = c

/-- The texts between the separators `c`. -/
def joined (c : Char) : List Text → Text
  | [] => []
  | [t] => t
  | t :: ts => t ++ c :: joined c ts

/-! ### Splitting -/

theorem split_ne_nil (c : Char) (s : Text) : split c s ≠ [] := by
  cases s with
  | nil => simp [split]
  | cons x xs =>
    rw [split]
    split
    · simp
    · split <;> simp

theorem split_spec (c : Char) (s : Text) :
    (∀ t ∈ split c s, c ∉ t) ∧ joined c (split c s) = s := by
  induction s with
  | nil => simp [split, joined]
  | cons x xs ih =>
    rw [split]
    split
    · rename_i h
      subst h
      refine ⟨?_, ?_⟩
      · intro t ht
        rcases List.mem_cons.1 ht with rfl | ht
        · simp
        · exact ih.1 t ht
      · cases hs : split x xs with
        | nil => exact absurd hs (split_ne_nil _ _)
        | cons t ts => rw [hs] at ih; simp [joined, ih.2]
    · rename_i h
      cases hs : split c xs with
      | nil => exact absurd hs (split_ne_nil _ _)
      | cons t ts =>
        rw [hs] at ih
        refine ⟨?_, ?_⟩
        · intro u hu
          rcases List.mem_cons.1 hu with rfl | hu
          · have := ih.1 t (by simp)
            simp only [List.mem_cons, not_or]
            exact ⟨fun h' => h h'.symm, this⟩
          · exact ih.1 u (by simp [hu])
        · cases ts with
          | nil => simpa [joined] using ih.2
          | cons u us => simpa [joined] using ih.2

theorem split_single {c : Char} {t : Text} (h : c ∉ t) : split c t = [t] := by
  induction t with
  | nil => rfl
  | cons x xs ih =>
    simp only [List.mem_cons, not_or] at h
    rw [split, if_neg (fun e => h.1 e.symm), ih h.2]

theorem split_cons {c : Char} {t : Text} (s : Text) (h : c ∉ t) : split c (t ++ c :: s) = t :: split c s := by
  induction t with
  | nil => rw [List.nil_append, split, if_pos rfl]
  | cons x xs ih =>
    simp only [List.mem_cons, not_or] at h
    rw [List.cons_append, split, if_neg (fun e => h.1 e.symm), ih h.2]

theorem split_joined {c : Char} {ts : List Text} (hne : ts ≠ []) (h : ∀ t ∈ ts, c ∉ t) :
    split c (joined c ts) = ts := by
  induction ts with
  | nil => exact absurd rfl hne
  | cons t ts ih =>
    cases ts with
    | nil => exact split_single (h t (by simp))
    | cons u us =>
      rw [joined, split_cons _ (h t (by simp)), ih (by simp) (fun x hx => h x (by simp [hx]))]
      simp

/-! ### Numbers -/

theorem digit_iff (c : Char) : (48 ≤ c.toNat ∧ c.toNat < 58) ↔ ('0' ≤ c ∧ c ≤ '9') := by
  rw [Char.le_def, Char.le_def, UInt32.le_iff_toNat_le, UInt32.le_iff_toNat_le]
  have h0 : ('0' : Char).val.toNat = 48 := by decide
  have h9 : ('9' : Char).val.toNat = 57 := by decide
  rw [h0, h9]
  have : c.toNat = c.val.toNat := rfl
  omega

theorem parseDigits_iff (s : Text) (n : Nat) :
    parseDigits s = some n ↔ s ≠ [] ∧ (∀ c ∈ s, '0' ≤ c ∧ c ≤ '9') ∧ n = Files.value s := by
  unfold parseDigits
  have : (s.all (fun c => decide (48 ≤ c.toNat ∧ c.toNat < 58)) = true) ↔ ∀ c ∈ s, '0' ≤ c ∧ c ≤ '9' := by
    rw [List.all_eq_true]
    exact forall_congr' fun c => forall_congr' fun _ => by rw [decide_eq_true_iff, digit_iff]
  split
  · rename_i h
    rw [this] at h
    simp only [Option.some.injEq]
    exact ⟨fun e => ⟨h.1, h.2, e.symm⟩, fun e => e.2.2.symm⟩
  · rename_i h
    constructor
    · simp
    · exact fun e => absurd ⟨e.1, this.2 e.2.1⟩ h

/-- **C41** (numbers). The problemset of a filter is read as a decimal numeral of 64 bits. -/
theorem C41_numbers (s : Text) (k : Int) :
    parseInt s = some k ↔ Numeral s k ∧ -2^63 ≤ k ∧ k < 2^63 := by
  have key : ∀ (r : Option Int), (r.bind fun i => if -2^63 ≤ i ∧ i < 2^63 then some i else none) = some k ↔
      r = some k ∧ -2^63 ≤ k ∧ k < 2^63 := by
    intro r
    cases r with
    | none => simp
    | some i =>
      simp only [Option.bind_some, Option.some.injEq]
      constructor
      · intro h
        split at h
        · rename_i hb
          cases h; exact ⟨rfl, hb⟩
        · cases h
      · rintro ⟨rfl, hb⟩
        rw [if_pos hb]
  unfold parseInt
  dsimp only
  rw [key]
  refine and_congr_left fun _ => ?_
  have hd : ∀ c : Char, ¬ ('0' ≤ c ∧ c ≤ '9') → ∀ ds : Text, ¬ ∀ x ∈ c :: ds, '0' ≤ x ∧ x ≤ '9' :=
    fun c hc ds h => hc (h c (by simp))
  split
  · rename_i ds
    rw [Option.map_eq_some_iff]
    constructor
    · rintro ⟨n, hn, rfl⟩
      rw [parseDigits_iff] at hn
      rw [hn.2.2]
      exact .minus _ hn.1 hn.2.1
    · intro h
      generalize hs : '-' :: ds = s at h
      cases h with
      | plain ds' h1 h2 => subst hs; exact absurd h2 (hd '-' (by decide) ds)
      | plus => cases hs
      | minus ds' h1 h2 => cases hs; exact ⟨_, (parseDigits_iff _ _).2 ⟨h1, h2, rfl⟩, rfl⟩
  · rename_i ds
    rw [Option.map_eq_some_iff]
    constructor
    · rintro ⟨n, hn, rfl⟩
      rw [parseDigits_iff] at hn
      rw [hn.2.2]
      exact .plus _ hn.1 hn.2.1
    · intro h
      generalize hs : '+' :: ds = s at h
      cases h with
      | plain ds' h1 h2 => subst hs; exact absurd h2 (hd '+' (by decide) ds)
      | minus => cases hs
      | plus ds' h1 h2 => cases hs; exact ⟨_, (parseDigits_iff _ _).2 ⟨h1, h2, rfl⟩, rfl⟩
  · rename_i hm hp
    rw [Option.map_eq_some_iff]
    constructor
    · rintro ⟨n, hn, rfl⟩
      rw [parseDigits_iff] at hn
      rw [hn.2.2]
      exact .plain _ hn.1 hn.2.1
    · intro h
      cases h with
      | plain ds' h1 h2 => exact ⟨_, (parseDigits_iff _ _).2 ⟨h1, h2, rfl⟩, rfl⟩
      | plus ds' => exact absurd rfl (hp ds')
      | minus ds' => exact absurd rfl (hm ds')

theorem parseInt_noslash {s : Text} {k : Int} (h : parseInt s = some k) : '/' ∉ s := by
  have key : ∀ ds : Text, (∀ c ∈ ds, '0' ≤ c ∧ c ≤ '9') → '/' ∉ ds := by
    intro ds h hm
    have := h _ hm
    revert this; decide
  rw [C41_numbers] at h
  cases h.1 with
  | plain _ _ h2 => exact key _ h2
  | plus _ _ h2 => simpa using key _ h2
  | minus _ _ h2 => simpa using key _ h2

theorem parseInt_fmtD {k : Int} (h : -2^63 ≤ k ∧ k < 2^63) : parseInt (Files.fmtD k) = some k := by
  rw [C41_numbers]
  refine ⟨?_, h⟩
  have hdig : ∀ n : Nat, ∀ c ∈ Files.dec n, '0' ≤ c ∧ c ≤ '9' := fun n c hc =>
    (digit_iff c).1 (Files.dec_digits n c hc)
  unfold Files.fmtD
  split
  · rename_i hk
    have := Numeral.minus (Files.dec k.natAbs) (Files.dec_ne_nil _) (hdig _)
    rw [Files.value_dec] at this
    rwa [show -((k.natAbs : Nat) : Int) = k by omega] at this
  · rename_i hk
    have := Numeral.plain (Files.dec k.natAbs) (Files.dec_ne_nil _) (hdig _)
    rw [Files.value_dec] at this
    rwa [show ((k.natAbs : Nat) : Int) = k by omega] at this

/-! ### C41 -/

theorem lits :
    "all-events".toList ≠ "user".toList ∧ "all-events".toList ≠ "problem".toList ∧
    "all-events".toList ≠ "problemset".toList ∧ "all-events".toList ≠ "contest".toList ∧
    "user".toList ≠ "problem".toList ∧ "user".toList ≠ "problemset".toList ∧ "user".toList ≠ "contest".toList ∧
    "problem".toList ≠ "problemset".toList ∧ "problem".toList ≠ "contest".toList ∧
    "problemset".toList ≠ "contest".toList := by decide

theorem noslash :
    '/' ∉ "all-events".toList ∧ '/' ∉ "user".toList ∧ '/' ∉ "problem".toList ∧ '/' ∉ "problemset".toList ∧
    '/' ∉ "contest".toList := by decide

theorem forms :
    "/all-events".toList = [] ++ '/' :: "all-events".toList ∧
    (∀ x, "/user/".toList ++ x = [] ++ '/' :: ("user".toList ++ '/' :: x)) ∧
    (∀ x, "/problem/".toList ++ x = [] ++ '/' :: ("problem".toList ++ '/' :: x)) ∧
    (∀ x, "/problemset/".toList ++ x = [] ++ '/' :: ("problemset".toList ++ '/' :: x)) ∧
    (∀ x, "/contest/".toList ++ x = [] ++ '/' :: ("contest".toList ++ '/' :: x)) :=
  ⟨rfl, fun _ => rfl, fun _ => rfl, fun _ => rfl, fun _ => rfl⟩

theorem newFilter_of_form {s : Text} {f : Filter} (h : Form s f) : newFilter s = .ok f := by
  obtain ⟨l1, l2, l3, l4, l5, l6, l7, l8, l9, l10⟩ := lits
  obtain ⟨n1, n2, n3, n4, n5⟩ := noslash
  obtain ⟨f1, f2, f3, f4, f5⟩ := forms
  unfold newFilter
  cases h with
  | allEvents => rw [f1, split_cons _ (by simp), split_single n1]; simp
  | user u hu =>
    rw [f2, split_cons _ (by simp), split_cons _ n2, split_single hu]
    dsimp only
    rw [if_neg (by simp), if_neg (Ne.symm l1), if_pos rfl]
  | problem p hp =>
    rw [f3, split_cons _ (by simp), split_cons _ n3, split_single hp]
    dsimp only
    rw [if_neg (by simp), if_neg (Ne.symm l2), if_neg (Ne.symm l5), if_pos rfl]
  | problemset n k hk =>
    rw [f4, split_cons _ (by simp), split_cons _ n4, split_single (parseInt_noslash hk)]
    dsimp only
    rw [if_neg (by simp), if_neg (Ne.symm l3), if_neg (Ne.symm l6), if_neg (Ne.symm l8), if_pos rfl, hk]
  | problemsetToken n k t hk ht =>
    rw [List.append_assoc, f4, split_cons _ (by simp), split_cons _ n4, split_cons _ (parseInt_noslash hk),
      split_single ht]
    dsimp only
    rw [if_neg (by simp), if_neg (Ne.symm l3), if_neg (Ne.symm l6), if_neg (Ne.symm l8), if_pos rfl, hk]
  | contest c hc =>
    rw [f5, split_cons _ (by simp), split_cons _ n5, split_single hc]
    dsimp only
    rw [if_neg (by simp), if_neg (Ne.symm l4), if_neg (Ne.symm l7), if_neg (Ne.symm l9), if_neg (Ne.symm l10),
      if_pos rfl]
  | contestToken c t hc ht =>
    rw [List.append_assoc, f5, split_cons _ (by simp), split_cons _ n5, split_cons _ hc, split_single ht]
    dsimp only
    rw [if_neg (by simp), if_neg (Ne.symm l4), if_neg (Ne.symm l7), if_neg (Ne.symm l9), if_neg (Ne.symm l10),
      if_pos rfl]

/-- What `newFilter` does, told from the parts of the string. -/
theorem newFilter_cases (s : Text) :
    (∃ f, newFilter s = .ok f ∧ Form s f) ∨ newFilter s = .error ∨
    (newFilter s = .panic ∧ s = "/problemset".toList) := by
  obtain ⟨f1, f2, f3, f4, f5⟩ := forms
  obtain ⟨hns, hj⟩ := split_spec '/' s
  unfold newFilter
  split
  · rename_i t0 t1 rest hs
    rw [hs] at hns hj
    split
    · exact Or.inr (Or.inl rfl)
    · rename_i h0
      have h0 : t0 = [] := by simpa using h0
      subst h0
      split
      · rename_i h1
        subst h1
        split
        · refine Or.inl ⟨_, rfl, ?_⟩
          have : s = "/all-events".toList := by rw [← hj, f1]; rfl
          rw [this]; exact .allEvents
        · exact Or.inr (Or.inl rfl)
      · split
        · rename_i h1
          subst h1
          split
          · rename_i u
            refine Or.inl ⟨_, rfl, ?_⟩
            have : s = "/user/".toList ++ u := by rw [← hj, f2]; rfl
            rw [this]; exact .user u (hns u (by simp))
          · exact Or.inr (Or.inl rfl)
        · split
          · rename_i h1
            subst h1
            split
            · rename_i u
              refine Or.inl ⟨_, rfl, ?_⟩
              have : s = "/problem/".toList ++ u := by rw [← hj, f3]; rfl
              rw [this]; exact .problem u (hns u (by simp))
            · exact Or.inr (Or.inl rfl)
          · split
            · rename_i h1
              subst h1
              split
              · refine Or.inr (Or.inr ⟨rfl, ?_⟩)
                rw [← hj]; rfl
              · rename_i t2 more
                split
                · exact Or.inr (Or.inl rfl)
                · rename_i k hk
                  split
                  · refine Or.inl ⟨_, rfl, ?_⟩
                    have : s = "/problemset/".toList ++ t2 := by rw [← hj, f4]; rfl
                    rw [this]; exact .problemset t2 k hk
                  · rename_i t
                    refine Or.inl ⟨_, rfl, ?_⟩
                    have : s = "/problemset/".toList ++ t2 ++ '/' :: t := by
                      rw [← hj, List.append_assoc, f4]; rfl
                    rw [this]; exact .problemsetToken t2 k t hk (hns t (by simp))
                  · exact Or.inr (Or.inl rfl)
            · split
              · rename_i h1
                subst h1
                split
                · rename_i c
                  refine Or.inl ⟨_, rfl, ?_⟩
                  have : s = "/contest/".toList ++ c := by rw [← hj, f5]; rfl
                  rw [this]; exact .contest c (hns c (by simp))
                · rename_i c t
                  refine Or.inl ⟨_, rfl, ?_⟩
                  have : s = "/contest/".toList ++ c ++ '/' :: t := by
                    rw [← hj, List.append_assoc, f5]; rfl
                  rw [this]; exact .contestToken c t (hns c (by simp)) (hns t (by simp))
                · exact Or.inr (Or.inl rfl)
              · exact Or.inr (Or.inl rfl)
  · exact Or.inr (Or.inl rfl)

/-- **C41** (accepted forms). `NewFilter` accepts exactly the documented forms, with the documented meaning. -/
theorem C41_accepts (s : Text) (f : Filter) : newFilter s = .ok f ↔ Form s f := by
  refine ⟨fun h => ?_, newFilter_of_form⟩
  rcases newFilter_cases s with ⟨g, h1, h2⟩ | h1 | ⟨h1, -⟩
  · rw [h] at h1; cases h1; exact h2
  · rw [h] at h1; cases h1
  · rw [h] at h1; cases h1

theorem C41_panic_at : newFilter "/problemset".toList = .panic := by decide +kernel

/-- **C41** (panics). Of all strings, `/problemset` and no other makes `NewFilter` panic. -/
theorem C41_panics_partial (s : Text) : newFilter s = .panic ↔ s = "/problemset".toList := by
  constructor
  · intro h
    rcases newFilter_cases s with ⟨g, h1, -⟩ | h1 | ⟨-, h1⟩
    · rw [h] at h1; cases h1
    · rw [h] at h1; cases h1
    · exact h1
  · rintro rfl; exact C41_panic_at

/-- A filter that `NewFilter` can return. -/
theorem Form.int_range {s : Text} {n : Int} {t : Text} (h : Form s (.problemset n t)) : -2^63 ≤ n ∧ n < 2^63 := by
  cases h with
  | problemset _ _ hk => exact ((C41_numbers _ _).1 hk).2
  | problemsetToken _ _ _ hk => exact ((C41_numbers _ _).1 hk).2

theorem string_problemset (n : Int) (t : Text) : (Filter.problemset n t).string =
    if t ≠ [] then "problemset".toList ++ '/' :: Files.fmtD n ++ '/' :: t
    else "problemset".toList ++ '/' :: Files.fmtD n := rfl

theorem string_contest (c t : Text) : (Filter.contest c t).string =
    if t ≠ [] then "contest".toList ++ '/' :: c ++ '/' :: t else "contest".toList ++ '/' :: c := rfl

/-- **C41** (round trip). The text of an accepted filter, after a slash, is accepted again and gives the same
filter. -/
theorem C41_round_trip (s : Text) (f : Filter) (h : newFilter s = .ok f) :
    newFilter ('/' :: f.string) = .ok f := by
  rw [C41_accepts] at h ⊢
  cases h with
  | allEvents => exact .allEvents
  | user u hu => exact .user u hu
  | problem p hp => exact .problem p hp
  | problemset n k hk =>
    exact .problemset _ _ (parseInt_fmtD ((C41_numbers _ _).1 hk).2)
  | problemsetToken n k t hk ht =>
    have hk := parseInt_fmtD ((C41_numbers _ _).1 hk).2
    rw [string_problemset]
    by_cases h0 : t = []
    · subst h0
      rw [if_neg (by simp)]
      exact .problemset _ _ hk
    · rw [if_pos h0]
      exact .problemsetToken _ _ _ hk ht
  | contest c hc => exact .contest c hc
  | contestToken c t hc ht =>
    rw [string_contest]
    by_cases h0 : t = []
    · subst h0
      rw [if_neg (by simp)]
      exact .contest c hc
    · rw [if_pos h0]
      exact .contestToken c t hc ht

theorem form_slash {s : Text} {f : Filter} (h : Form s f) : s.head? = some '/' := by
  cases h <;> rfl

theorem string_head (f : Filter) : f.string.head? ≠ some '/' := by
  cases f with
  | allEvents => decide
  | user u => change some 'u' ≠ _; decide
  | problem u => change some 'p' ≠ _; decide
  | problemset n t => rw [string_problemset]; split <;> (change some 'p' ≠ _; decide)
  | contest c t => rw [string_contest]; split <;> (change some 'c' ≠ _; decide)

/-- **C41** (the text alone). Without that slash, the text of a filter is never accepted. -/
theorem C41_string_rejected (f : Filter) : newFilter f.string = .error := by
  rcases newFilter_cases f.string with ⟨g, h1, h2⟩ | h1 | ⟨h1, h2⟩
  · exact absurd (form_slash h2) (string_head f)
  · exact h1
  · exact absurd (by rw [h2]; rfl) (string_head f)

example : newFilter "/problemset/-00012/secret".toList = .ok (.problemset (-12) "secret".toList) := by decide +kernel
example : newFilter "/problemset/9223372036854775808".toList = .error := by decide +kernel
example : newFilter "/contest/a/b/c".toList = .error := by decide +kernel
example : (Filter.problemset (-12) "secret".toList).string = "problemset/-12/secret".toList := by decide +kernel

/-! ### C40 -/

/-- What lets a user with the permissions `v` see a message through a filter. -/
def Allowed (v : Validated) (m : Message) : Filter → Prop
  | .allEvents => v.admin = true
  | .user _ => True
  | .problem _ => v.admin = true ∨ m.isPublic = true ∨ (v.user ≠ [] ∧ m.user = v.user) ∨ m.problem ∈ v.problemAdmin
  | .problemset _ _ =>
    v.admin = true ∨ m.isPublic = true ∨ (v.user ≠ [] ∧ m.user = v.user) ∨ m.problemset ∈ v.problemsetAdmin
  | .contest _ _ =>
    v.admin = true ∨ m.isPublic = true ∨ (v.user ≠ [] ∧ m.user = v.user) ∨ m.contest ∈ v.contestAdmin

theorem parseFilters_some {ts : List Text} {acc fs : List Filter} {b : Bool}
    (h : parseFilters ts acc = (some fs, b)) :
    ∃ gs, fs = acc ++ gs ∧ List.Forall₂ (fun t f => newFilter t = .ok f) ts gs := by
  induction ts generalizing acc with
  | nil =>
    simp only [parseFilters, Prod.mk.injEq, Option.some.injEq] at h
    exact ⟨[], by simp [h.1], .nil⟩
  | cons t ts ih =>
    rw [parseFilters] at h
    split at h
    · rename_i f hf
      obtain ⟨gs, h1, h2⟩ := ih h
      exact ⟨f :: gs, by simp [h1], .cons hf h2⟩
    · simp at h
    · simp at h

theorem forall₂_mem_right {α β : Type} {R : α → β → Prop} {as : List α} {bs : List β}
    (h : List.Forall₂ R as bs) {b : β} (hb : b ∈ bs) : ∃ a ∈ as, R a b := by
  induction h with
  | nil => simp at hb
  | cons hr _ ih =>
    rcases List.mem_cons.1 hb with rfl | hb
    · exact ⟨_, by simp, hr⟩
    · obtain ⟨a, ha, h⟩ := ih hb
      exact ⟨a, by simp [ha], h⟩

theorem forall₂_mem_left {α β : Type} {R : α → β → Prop} {as : List α} {bs : List β}
    (h : List.Forall₂ R as bs) {a : α} (ha : a ∈ as) : ∃ b ∈ bs, R a b := by
  induction h with
  | nil => simp at ha
  | cons hr _ ih =>
    rcases List.mem_cons.1 ha with rfl | ha
    · exact ⟨_, by simp, hr⟩
    · obtain ⟨b, hb, h⟩ := ih ha
      exact ⟨b, by simp [hb], h⟩

theorem forall₂_imp {α β : Type} {R S : α → β → Prop} (hi : ∀ a b, R a b → S a b) {as : List α} {bs : List β}
    (h : List.Forall₂ R as bs) : List.Forall₂ S as bs := by
  induction h with
  | nil => exact .nil
  | cons hr _ ih => exact .cons (hi _ _ hr) ih

theorem newSubscriber_ok {filters : Text} {v : Validated} {s : Subscriber}
    (h : newSubscriber filters (some v) = .ok s) :
    s.user = v.user ∧ s.admin = v.admin ∧ s.problemAdmin = v.problemAdmin ∧ s.contestAdmin = v.contestAdmin ∧
    s.problemsetAdmin = v.problemsetAdmin ∧
    List.Forall₂ (fun t f => newFilter t = .ok f) (split ',' filters) s.filters := by
  unfold newSubscriber at h
  split at h
  · cases h
  · cases h
  · rename_i fs hp
    dsimp only at h
    cases h
    obtain ⟨gs, h1, h2⟩ := parseFilters_some hp
    rw [List.nil_append] at h1
    subst h1
    exact ⟨rfl, rfl, rfl, rfl, rfl, h2⟩

theorem accepts_iff {s : Subscriber} {v : Validated} (m : Message) (f : Filter)
    (h1 : s.user = v.user) (h2 : s.admin = v.admin) (h3 : s.problemAdmin = v.problemAdmin)
    (h4 : s.contestAdmin = v.contestAdmin) (h5 : s.problemsetAdmin = v.problemsetAdmin) :
    f.accepts m s = true ↔ Wanted v.user m f ∧ Allowed v m f := by
  cases f <;> simp [Filter.accepts, Wanted, Allowed, h1, h2, h3, h4, h5, or_assoc]

/-- **C40** (exactly). A subscriber with the filter string `filters`, whom the frontend gave the permissions `v`,
gets a message exactly if one of the filters between the commas asks for it and lets it through. -/
theorem C40_exact (filters : Text) (v : Validated) (s : Subscriber) (m : Message)
    (h : newSubscriber filters (some v) = .ok s) :
    s.accepts m = true ↔ ∃ ts, filters = joined ',' ts ∧ (∀ t ∈ ts, ',' ∉ t) ∧
      ∃ t ∈ ts, ∃ f, Form t f ∧ Wanted v.user m f ∧ Allowed v m f := by
  obtain ⟨h1, h2, h3, h4, h5, h6⟩ := newSubscriber_ok h
  unfold Subscriber.accepts
  rw [List.any_eq_true]
  constructor
  · rintro ⟨f, hf, ha⟩
    obtain ⟨t, ht, hp⟩ := forall₂_mem_right h6 hf
    exact ⟨_, (split_spec ',' filters).2.symm, (split_spec ',' filters).1, t, ht, f, (C41_accepts t f).1 hp,
      (accepts_iff m f h1 h2 h3 h4 h5).1 ha⟩
  · rintro ⟨ts, hts, hns, t, ht, f, hf, hw⟩
    have : split ',' filters = ts := by
      rw [hts]; exact split_joined (by rintro rfl; cases ht) hns
    rw [this] at h6
    obtain ⟨f', hf', hp⟩ := forall₂_mem_left h6 ht
    rw [newFilter_of_form hf] at hp
    cases hp
    exact ⟨f, hf', (accepts_iff m f h1 h2 h3 h4 h5).2 hw⟩

/-- **C40** (partial: not for an anonymous subscriber and a message without a user, see `C40_broken`). Whatever
filters it asked for, a subscriber gets only messages that it is entitled to see. -/
theorem C40_entitled_partial (filters : Text) (v : Validated) (s : Subscriber) (m : Message)
    (h : newSubscriber filters (some v) = .ok s) (hn : ¬ (v.user = [] ∧ m.user = []))
    (ha : s.accepts m = true) : Entitled v m := by
  obtain ⟨_, _, _, _, _, f, _, hw, hal⟩ := (C40_exact filters v s m h).1 ha
  unfold Entitled
  cases f with
  | allEvents => exact Or.inl hal
  | user u =>
    have hw : m.user = v.user := hw
    refine Or.inr (Or.inr (Or.inl ⟨fun hv => hn ⟨hv, by rw [hw, hv]⟩, hw⟩))
  | problem p =>
    rcases hal with h | h | h | h
    · exact Or.inl h
    · exact Or.inr (Or.inl h)
    · exact Or.inr (Or.inr (Or.inl h))
    · exact Or.inr (Or.inr (Or.inr (Or.inl h)))
  | problemset n t =>
    rcases hal with h | h | h | h
    · exact Or.inl h
    · exact Or.inr (Or.inl h)
    · exact Or.inr (Or.inr (Or.inl h))
    · exact Or.inr (Or.inr (Or.inr (Or.inr (Or.inr h))))
  | contest c t =>
    rcases hal with h | h | h | h
    · exact Or.inl h
    · exact Or.inr (Or.inl h)
    · exact Or.inr (Or.inr (Or.inl h))
    · exact Or.inr (Or.inr (Or.inr (Or.inr (Or.inl h))))

/-- **C40 is false for anonymous subscribers**: one who asks for the events of anybody gets every private message
that carries no user, of any problem, contest and problemset. -/
theorem C40_broken (u : Text) (hu : '/' ∉ u ∧ ',' ∉ u) (m : Message) (hm : m.user = []) (hp : m.isPublic = false) :
    ∃ s, newSubscriber ("/user/".toList ++ u) (some {}) = .ok s ∧ s.accepts m = true ∧ ¬ Entitled {} m := by
  have hsplit : split ',' ("/user/".toList ++ u) = ["/user/".toList ++ u] := by
    apply split_single
    rw [List.mem_append]
    rintro (h | h)
    · revert h; decide
    · exact hu.2 h
  have hnf := newFilter_of_form (Form.user u hu.1)
  unfold newSubscriber
  rw [hsplit, parseFilters, hnf]
  refine ⟨_, rfl, ?_, ?_⟩
  · simp [Subscriber.accepts, Filter.accepts, hm]
  · simp [Entitled, hp]

/-- **C40** (a filter at least). No subscriber comes about with a filter missing or not understood, or without the
frontend's consent. -/
theorem C40_validated (filters : Text) (reply : Option Validated) (s : Subscriber)
    (h : newSubscriber filters reply = .ok s) : s.filters ≠ [] ∧ reply ≠ none ∧
      ∀ ts, filters = joined ',' ts → ts ≠ [] → (∀ t ∈ ts, ',' ∉ t) → List.Forall₂ Form ts s.filters := by
  cases reply with
  | none =>
    unfold newSubscriber at h
    split at h <;> cases h
  | some v =>
    have h6 := (newSubscriber_ok h).2.2.2.2.2
    refine ⟨?_, by simp, ?_⟩
    · intro he
      rw [he] at h6
      cases hs : split ',' filters with
      | nil => exact split_ne_nil _ _ hs
      | cons t ts => rw [hs] at h6; cases h6
    · intro ts hts hne hns
      rw [hts, split_joined hne hns] at h6
      exact forall₂_imp (fun t f => (C41_accepts t f).1) h6

example : ∃ s, newSubscriber "/contest/omi,/problem/sumas".toList
      (some { user := "ana".toList, problemAdmin := ["sumas".toList] }) = .ok s ∧
    s.accepts { contest := "omi".toList, user := "ana".toList } = true ∧
    s.accepts { contest := "omi".toList, user := "luis".toList } = false ∧
    s.accepts { problem := "sumas".toList, user := "luis".toList } = true ∧
    s.accepts { problem := "sumas2".toList, user := "ana".toList, isPublic := true } = false :=
  ⟨_, rfl, by decide +kernel⟩

/-- What `NewSubscriber` comes to. A subscriber comes about exactly if every part between the commas is one of the
documented forms and the frontend consents. Otherwise there is an error, unless the first part that is not of a
documented form is `/problemset`, which panics. -/
theorem C41_subscription (filters : Text) (reply : Option Validated) :
    ((∃ s, newSubscriber filters reply = .ok s) ↔
      (∃ v, reply = some v) ∧ ∀ t ∈ split ',' filters, ∃ f, Form t f) ∧
    (newSubscriber filters reply = .panic ↔ ∃ before after, split ',' filters = before ++ "/problemset".toList :: after ∧
      ∀ t ∈ before, ∃ f, Form t f) := by
  have key : ∀ (ts : List Text) (acc : List Filter),
      ((∃ fs, parseFilters ts acc = (some fs, false)) ∧ ∀ t ∈ ts, ∃ f, Form t f) ∨
      (parseFilters ts acc = (none, true) ∧ ∃ before after, ts = before ++ "/problemset".toList :: after ∧
        ∀ t ∈ before, ∃ f, Form t f) ∨
      (parseFilters ts acc = (none, false) ∧ ∃ before bad after, ts = before ++ bad :: after ∧
        (∀ t ∈ before, ∃ f, Form t f) ∧ (¬ ∃ f, Form bad f) ∧ bad ≠ "/problemset".toList) := by
    intro ts
    induction ts with
    | nil => intro acc; exact Or.inl ⟨⟨acc, rfl⟩, by simp⟩
    | cons t ts ih =>
      intro acc
      rw [parseFilters]
      cases hf : newFilter t with
      | ok f =>
        have hform := (C41_accepts t f).1 hf
        have hcons : ∀ before : List Text, (∀ x ∈ before, ∃ f, Form x f) → ∀ x ∈ t :: before, ∃ f, Form x f := by
          intro before hb x hx
          rcases List.mem_cons.1 hx with rfl | hx
          · exact ⟨f, hform⟩
          · exact hb x hx
        rcases ih (acc ++ [f]) with ⟨h1, h2⟩ | ⟨h1, b, a, h2, h3⟩ | ⟨h1, b, x, a, h2, h3, h4⟩
        · exact Or.inl ⟨h1, hcons ts h2⟩
        · exact Or.inr (Or.inl ⟨h1, t :: b, a, by rw [h2]; rfl, hcons b h3⟩)
        · exact Or.inr (Or.inr ⟨h1, t :: b, x, a, by rw [h2]; rfl, hcons b h3, h4⟩)
      | error =>
        refine Or.inr (Or.inr ⟨rfl, [], t, ts, rfl, by simp, ?_, ?_⟩)
        · rintro ⟨f, h⟩
          rw [(C41_accepts t f).2 h] at hf
          cases hf
        · rintro rfl
          rw [C41_panic_at] at hf
          cases hf
      | panic =>
        exact Or.inr (Or.inl ⟨rfl, [], ts, by rw [(C41_panics_partial t).1 hf]; rfl, by simp⟩)
  have hps : ¬ ∃ f, Form "/problemset".toList f := by
    rintro ⟨f, h⟩
    have := (C41_accepts _ f).2 h
    rw [C41_panic_at] at this
    cases this
  -- the first part that is not of a documented form is determined
  have first : ∀ (b b' a a' : List Text) (x y : Text), b ++ x :: a = b' ++ y :: a' → (∀ t ∈ b, ∃ f, Form t f) →
      (∀ t ∈ b', ∃ f, Form t f) → (¬ ∃ f, Form x f) → (¬ ∃ f, Form y f) → x = y := by
    intro b
    induction b with
    | nil =>
      intro b' a a' x y h _ hb' hx _
      cases b' with
      | nil => exact (List.cons.inj h).1
      | cons t b' =>
        obtain ⟨rfl, -⟩ := List.cons.inj h
        exact absurd (hb' _ (by simp)) hx
    | cons t b ih =>
      intro b' a a' x y h hb hb' hx hy
      cases b' with
      | nil =>
        obtain ⟨rfl, -⟩ := List.cons.inj h
        exact absurd (hb _ (by simp)) hy
      | cons t' b' =>
        obtain ⟨-, h⟩ := List.cons.inj h
        exact ih b' a a' x y h (fun t ht => hb t (by simp [ht])) (fun t ht => hb' t (by simp [ht])) hx hy
  unfold newSubscriber
  rcases key (split ',' filters) [] with ⟨⟨fs, h1⟩, h2⟩ | ⟨h1, b, a, h2, h3⟩ | ⟨h1, b, x, a, h2, h3, h4, h5⟩
  · rw [h1]
    refine ⟨?_, ?_⟩
    · cases reply with
      | none => simp
      | some v => exact ⟨fun _ => ⟨⟨v, rfl⟩, h2⟩, fun _ => ⟨_, rfl⟩⟩
    · constructor
      · intro h
        cases reply <;> cases h
      · rintro ⟨b, a, hb, -⟩
        exact absurd (h2 _ (by rw [hb]; simp)) hps
  · rw [h1]
    refine ⟨⟨(fun ⟨s, h⟩ => by cases h), fun ⟨_, h⟩ => ?_⟩, ⟨fun _ => ⟨b, a, h2, h3⟩, fun _ => rfl⟩⟩
    exact absurd (h _ (by rw [h2]; simp)) hps
  · rw [h1]
    refine ⟨⟨(fun ⟨s, h⟩ => by cases h), fun ⟨_, h⟩ => ?_⟩, ⟨(fun h => by cases h), ?_⟩⟩
    · exact absurd (h _ (by rw [h2]; simp)) h4
    · rintro ⟨b', a', hb, hf⟩
      rw [h2] at hb
      exact absurd (first _ _ _ _ _ _ hb h3 hf h4 hps) h5

end Quark.Filter
