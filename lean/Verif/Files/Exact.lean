import Verif.Files.Props

/-!
# Which names the handlers accept, and where the files are (C57, C68)
-/

namespace Quark.Files

open Path

/-- The two digits of a number below a hundred. -/
def twoDigits (n : Nat) (cs : List Char) : Prop :=
  ∃ a b : Char, cs = [a, b] ∧ a.toNat = 48 + n / 10 ∧ b.toNat = 48 + n % 10

/-- A decimal numeral without superfluous zeros. -/
def IsNumeral (n : Nat) (cs : List Char) : Prop :=
  value cs = n ∧ (∀ c ∈ cs, 48 ≤ c.toNat ∧ c.toNat ≤ 57) ∧ cs ≠ [] ∧ (cs.head?.map Char.toNat = some 48 → n = 0 ∧ cs.length = 1)

theorem dec_head (n : Nat) : (dec n).head?.map Char.toNat = some 48 → n = 0 ∧ (dec n).length = 1 := by
  induction n using Nat.strongRecOn with
  | ind n ih =>
    intro h
    rw [dec] at h ⊢
    by_cases hn : n < 10
    · rw [if_pos hn] at h ⊢
      simp only [List.head?_cons, Option.map_some, Option.some.injEq] at h
      rw [digit_toNat hn] at h
      exact ⟨by omega, rfl⟩
    · rw [if_neg hn] at h ⊢
      exfalso
      cases hd : dec (n / 10) with
      | nil => exact dec_ne_nil _ hd
      | cons c cs =>
        rw [hd] at h
        have := ih (n / 10) (by omega) (by rw [hd]; simpa using h)
        omega

theorem dec_numeral (n : Nat) : IsNumeral n (dec n) :=
  ⟨value_dec n, fun c hc => by have := dec_digits n c hc; omega, dec_ne_nil n, dec_head n⟩

theorem fmt02_two {n : Nat} (h : n < 100) : twoDigits n (fmt02D (n : Int)) := by
  unfold fmt02D
  rw [if_neg (by omega), Int.natAbs_natCast]
  by_cases h10 : n < 10
  · have hd : dec n = [digit n] := by rw [dec, if_pos h10]
    rw [hd]
    refine ⟨'0', digit n, rfl, ?_, ?_⟩
    · have : n / 10 = 0 := by omega
      rw [this]; rfl
    · rw [digit_toNat h10]; omega
  · have hd : dec n = [digit (n / 10), digit (n % 10)] := by
      rw [dec, if_neg h10, dec, if_pos (by omega)]; rfl
    rw [hd]
    refine ⟨digit (n / 10), digit (n % 10), rfl, ?_, ?_⟩
    · rw [digit_toNat (by omega)]; omega
    · rw [digit_toNat (by omega)]; omega

/-- **C57** (where). The grade directory of run `n` is `<last two digits>/<the two before>/<n>` below the root. -/
theorem C57_where (root : List Char) (hroot : root ≠ []) (n : Nat) :
    ∃ a b c, names (gradeDir root n) = names root ++ [a, b, c] ∧ twoDigits (n % 100) a ∧ twoDigits (n / 100 % 100) b ∧
      IsNumeral n c := by
  refine ⟨_, _, _, names_gradeDir hroot n, ?_, ?_, ?_⟩
  · have : Int.tmod (n : Int) 100 = ((n % 100 : Nat) : Int) := by
      rw [Int.tmod_eq_emod_of_nonneg (by omega)]; omega
    rw [this]
    exact fmt02_two (by omega)
  · have : (Int.tmod (n : Int) 10000).tdiv 100 = ((n / 100 % 100 : Nat) : Int) := by
      rw [Int.tmod_eq_emod_of_nonneg (by omega), Int.tdiv_eq_ediv_of_nonneg (by omega)]; omega
    rw [this]
    exact fmt02_two (by omega)
  · unfold fmtD
    rw [if_neg (by omega), Int.natAbs_natCast]
    exact dec_numeral n

/-- **C57** (which). The names a resource request may use are exactly the non-empty ones without a slash that do not
begin with a dot. -/
theorem C57_which (root : List Char) (id : Int) (filename : List Char) :
    resource root id filename ≠ none ↔
      id ≠ 0 ∧ filename ≠ [] ∧ filename.head?.map Char.toNat ≠ some 46 ∧ ∀ c ∈ filename, c.toNat ≠ 47 := by
  have hc : ∀ (c d : Char), c.toNat = d.toNat ↔ c = d := fun c d => Char.toNat_inj
  have h46 : filename.head?.map Char.toNat = some 46 ↔ filename.head? = some '.' := by
    cases filename with
    | nil => simp
    | cons c cs =>
      simp only [List.head?_cons, Option.map_some, Option.some.injEq]
      exact hc c '.'
  have h47 : (∀ c ∈ filename, c.toNat ≠ 47) ↔ '/' ∉ filename := by
    constructor
    · intro h hm; exact h _ hm rfl
    · intro h c hm he
      have : c = '/' := (hc c '/').1 he
      rw [this] at hm
      exact h hm
  unfold resource
  simp only [ne_eq] at h47 ⊢
  rw [h46, h47]
  by_cases h0 : id = 0
  · simp [h0]
  · rw [if_neg h0]
    by_cases h1 : filename = [] ∨ filename.head? = some '.' ∨ '/' ∈ filename
    · rw [if_pos h1]
      simp only [ne_eq, not_true_eq_false, false_iff]
      rintro ⟨-, a, b, c⟩
      rcases h1 with h1 | h1 | h1
      · exact a h1
      · exact b h1
      · exact c h1
    · rw [if_neg h1]
      simp only [not_or] at h1
      exact ⟨fun _ => ⟨h0, h1.1, h1.2.1, h1.2.2⟩, fun _ => by simp⟩

/-- A lowercase hexadecimal digit, by its code. -/
def HexCode (c : Char) : Prop := (48 ≤ c.toNat ∧ c.toNat ≤ 57) ∨ (97 ≤ c.toNat ∧ c.toNat ≤ 102)

/-- A letter, a digit, a hyphen or an underscore, by its code. -/
def AliasCode (c : Char) : Prop :=
  (97 ≤ c.toNat ∧ c.toNat ≤ 122) ∨ (65 ≤ c.toNat ∧ c.toNat ≤ 90) ∨ (48 ≤ c.toNat ∧ c.toNat ≤ 57) ∨ c.toNat = 45 ∨
    c.toNat = 95

theorem char_le (c d : Char) : c ≤ d ↔ c.toNat ≤ d.toNat := by
  rw [Char.le_def]; exact UInt32.le_iff_toNat_le

theorem isHex_iff (c : Char) : isHex c = true ↔ HexCode c := by
  unfold isHex HexCode
  rw [decide_eq_true_iff]
  simp only [char_le]
  exact Iff.rfl

theorem isAlias_iff (c : Char) : isAlias c = true ↔ AliasCode c := by
  have hc : ∀ (c d : Char), c = d ↔ c.toNat = d.toNat := fun c d => Char.toNat_inj.symm
  unfold isAlias AliasCode
  rw [decide_eq_true_iff]
  simp only [char_le, hc c]
  exact Iff.rfl

/-- **C68** (which). A submission is served exactly for 32 hexadecimal digits; a CI report exactly for a problem of
letters, digits, hyphens and underscores and 40 hexadecimal digits. -/
theorem C68_which (root guid problem commit : List Char) :
    (submissionSource root guid ≠ none ↔ guid.length = 32 ∧ ∀ c ∈ guid, HexCode c) ∧
    (ciReport root problem commit ≠ none ↔
      problem ≠ [] ∧ (∀ c ∈ problem, AliasCode c) ∧ commit.length = 40 ∧ ∀ c ∈ commit, HexCode c) := by
  have hall : ∀ l : List Char, l.all isHex = true ↔ ∀ c ∈ l, HexCode c := fun l => by
    rw [List.all_eq_true]; exact forall₂_congr fun c _ => isHex_iff c
  have hall2 : ∀ l : List Char, l.all isAlias = true ↔ ∀ c ∈ l, AliasCode c := fun l => by
    rw [List.all_eq_true]; exact forall₂_congr fun c _ => isAlias_iff c
  rw [← hall, ← hall, ← hall2]
  constructor
  · unfold submissionSource
    by_cases h : guid.length ≠ 32 ∨ ¬ guid.all isHex = true
    · rw [if_pos h]
      simp only [ne_eq, not_true_eq_false, false_iff]
      rintro ⟨a, b⟩
      rcases h with h | h
      · exact h a
      · exact h b
    · rw [if_neg h]
      simp only [not_or, not_not] at h
      exact ⟨fun _ => ⟨h.1, h.2⟩, fun _ => by simp⟩
  · unfold ciReport
    by_cases h : problem = [] ∨ ¬ problem.all isAlias = true ∨ commit.length ≠ 40 ∨ ¬ commit.all isHex = true
    · rw [if_pos h]
      simp only [ne_eq, not_true_eq_false, false_iff]
      rintro ⟨a, b, c, d⟩
      rcases h with h | h | h | h
      · exact a h
      · exact h b
      · exact h c
      · exact h d
    · rw [if_neg h]
      simp only [not_or, not_not] at h
      exact ⟨fun _ => ⟨h.1, h.2.1, h.2.2.1, h.2.2.2⟩, fun _ => by simp⟩

/-- **C68** (where). An archive is `cache/<first two>/<other 38>.tar.gz`, an unpacked input `input/<first two>/<other
38>`, both below the runtime path. -/
theorem C68_where (root : List Char) (hroot : root ≠ []) (h : List Char) (hh : IsHash h) :
    names (archivePath root h) =
      names root ++ [['c', 'a', 'c', 'h', 'e'], h.take 2, h.drop 2 ++ ['.', 't', 'a', 'r', '.', 'g', 'z']] ∧
    names (runnerPath root h) = names root ++ [['i', 'n', 'p', 'u', 't'], h.take 2, h.drop 2] ∧
    rooted (archivePath root h) = rooted root ∧ rooted (runnerPath root h) = rooted root :=
  ⟨names_archivePath hroot hh, names_runnerPath hroot hh, rooted_join hroot _, rooted_join hroot _⟩

example : IsHash exHash ∧ HexCode 'f' ∧ ¬ HexCode 'g' ∧ AliasCode 'z' ∧ ¬ AliasCode '/' := by
  unfold IsHash HexCode AliasCode; decide +kernel

end Quark.Files
