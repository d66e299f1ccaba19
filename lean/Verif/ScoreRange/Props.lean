import Verif.ScoreRange.Model
import Mathlib.Tactic.Linarith
import Mathlib.Tactic.SplitIfs
import Mathlib.Data.Rat.Floor

namespace Quark.ScoreRange

/-- C64: a score range is accepted iff it consists of exactly two numbers in order between 0 and 1, and then it is those
two numbers. -/
theorem C64_accepted_iff (l : List ℚ) (r : Range) :
    unmarshal l = .ok r ↔ l = [r.lo, r.hi] ∧ 0 ≤ r.lo ∧ r.lo ≤ r.hi ∧ r.hi ≤ 1 := by
  unfold unmarshal
  match l with
  | [] => simp
  | [a] => simp
  | a :: b :: c :: l => simp
  | [a, b] =>
    simp only [List.length_cons, List.length_nil, Nat.zero_add, Nat.reduceAdd, ne_eq, not_true_eq_false, if_false,
      List.getD_cons_zero, List.getD_cons_succ, gt_iff_lt]
    obtain ⟨lo, hi⟩ := r
    split_ifs with h1 h2
    · simp only [reduceCtorEq, List.cons.injEq, and_true, false_iff]
      rintro ⟨⟨rfl, rfl⟩, -, h, -⟩
      exact absurd h1 (not_lt.2 h)
    · simp only [reduceCtorEq, List.cons.injEq, and_true, false_iff]
      rintro ⟨⟨rfl, rfl⟩, h3, -, h4⟩
      rcases h2 with h2 | h2
      · exact absurd h2 (not_lt.2 h3)
      · exact absurd h2 (not_lt.2 h4)
    · push Not at h1 h2
      simp only [Except.ok.injEq, Range.mk.injEq, List.cons.injEq, and_true]
      constructor
      · rintro ⟨rfl, rfl⟩; exact ⟨⟨rfl, rfl⟩, h2.1, h1, h2.2⟩
      · rintro ⟨h, -⟩; exact h

example : unmarshal [1 / 2, 1] = .ok ⟨1 / 2, 1⟩ ∧ unmarshal [0, 0] = .ok ⟨0, 0⟩ ∧ unmarshal [1, 1 / 2] = .error .unsorted ∧
    unmarshal [1 / 2, 3 / 2] = .error .outside ∧ unmarshal [-1, 1] = .error .outside ∧
    unmarshal [1 / 2] = .error .notTwo := by decide +kernel

theorem print_close (P : Printer) (a : ℚ) : P.print a - a < 1 / 1000000 ∧ a - P.print a < 1 / 1000000 := by
  have hlo : ((⌊a * 1000000⌋ : ℤ) : ℚ) / 1000000 ≤ a := by
    have := Int.floor_le (a * 1000000); linarith
  have hhi : a < ((⌊a * 1000000⌋ + 1 : ℤ) : ℚ) / 1000000 := by
    have := Int.lt_floor_add_one (a * 1000000); push_cast; linarith
  have h1 := P.mono _ _ hlo
  have h2 := P.mono _ _ (le_of_lt hhi)
  rw [P.grid] at h1 h2
  obtain ⟨n, hn⟩ := P.onGrid a
  have h2' : ((⌊a * 1000000⌋ + 1 : ℤ) : ℚ) / 1000000 = ((⌊a * 1000000⌋ : ℤ) : ℚ) / 1000000 + 1 / 1000000 := by
    push_cast; ring
  rw [h2'] at h2 hhi
  rcases eq_or_lt_of_le hlo with he | hlt
  · have : P.print a = a := by
      conv_lhs => rw [← he]
      rw [P.grid]; exact he
    rw [this]; norm_num
  · constructor <;> linarith

/-- C76: a range that was accepted and then printed (in a CI report) is accepted again, and its ends have moved by less
than a millionth; ranges whose ends are multiples of a millionth come back as they were. -/
theorem C76_reprint_partial (P : Printer) (l : List ℚ) (r : Range) (h : unmarshal l = .ok r) :
    ∃ r', unmarshal (marshal P r) = .ok r' ∧ |r'.lo - r.lo| < 1 / 1000000 ∧ |r'.hi - r.hi| < 1 / 1000000 ∧
      ((∃ n m : Int, r.lo = n / 1000000 ∧ r.hi = m / 1000000) → r' = r) := by
  obtain ⟨-, h0, h1, h2⟩ := (C64_accepted_iff l r).1 h
  have hz := P.mono _ _ h0
  have ho := P.mono _ _ h2
  have z := P.grid 0
  have o := P.grid 1000000
  norm_num at z o
  rw [z] at hz
  rw [o] at ho
  refine ⟨⟨P.print r.lo, P.print r.hi⟩, ?_, ?_, ?_, ?_⟩
  · rw [C64_accepted_iff]
    exact ⟨rfl, hz, P.mono _ _ h1, ho⟩
  · rw [abs_lt]; have := print_close P r.lo; constructor <;> linarith [this.1, this.2]
  · rw [abs_lt]; have := print_close P r.hi; constructor <;> linarith [this.1, this.2]
  · rintro ⟨n, m, hn, hm⟩
    obtain ⟨lo, hi⟩ := r
    simp only at hn hm
    subst hn hm
    simp only [P.grid]

/-- Rounding to the nearest millionth, ties up. -/
def nearest : Printer where
  print a := (⌊a * 1000000 + 1 / 2⌋ : ℤ) / 1000000
  mono a b h := by
    have : ⌊a * 1000000 + 1 / 2⌋ ≤ ⌊b * 1000000 + 1 / 2⌋ := Int.floor_le_floor (by linarith)
    have : ((⌊a * 1000000 + 1 / 2⌋ : ℤ) : ℚ) ≤ (⌊b * 1000000 + 1 / 2⌋ : ℤ) := by exact_mod_cast this
    linarith
  grid n := by
    have : ⌊(n : ℚ) / 1000000 * 1000000 + 1 / 2⌋ = n := by
      rw [Int.floor_eq_iff]; constructor <;> norm_num
    rw [this]
  onGrid a := ⟨_, rfl⟩

/-- In general it does not come back as it was: a solution that must score exactly one third appears in the report with
a range that its score of one third is not in. -/
theorem C76_reprint_false : unmarshal [1 / 3, 1 / 3] = .ok ⟨1 / 3, 1 / 3⟩ ∧
    ∃ r', unmarshal (marshal nearest ⟨1 / 3, 1 / 3⟩) = .ok r' ∧ ¬ (r'.lo ≤ 1 / 3 ∧ 1 / 3 ≤ r'.hi) :=
  ⟨by decide +kernel, ⟨333333 / 1000000, 333333 / 1000000⟩, by decide +kernel, by norm_num⟩

end Quark.ScoreRange
