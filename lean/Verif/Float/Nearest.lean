import Verif.Float.Lemmas

/-!
# The rounding of the model is that of IEEE-754 (C07)

`roundQ` is defined through logarithms and the unit in the last place. Here it is compared with the text of the
standard: the result is a number with 53 significant bits and an exponent of at least -1074, no other such number
is nearer, and of two that are equally near the one with the even significand is taken.
-/

namespace Quark.Float

/-! ## Specification -/

/-- Numbers with at most 53 significant bits and a last place of at least 2^-1074. -/
def Grid (r : ℚ) : Prop := ∃ m e : ℤ, |m| < 2 ^ 53 ∧ -1074 ≤ e ∧ r = m * 2 ^ e

/-! ## Proofs -/

theorem rne_nearest (x : ℚ) (n : ℤ) : |(rne x : ℚ) - x| ≤ |(n : ℚ) - x| := by
  by_cases h : n = rne x
  · rw [h]
  · have h1 := rne_err x
    have h2 : (1 : ℚ) ≤ |((n - rne x : ℤ) : ℚ)| := by
      have : (1 : ℤ) ≤ |n - rne x| := Int.one_le_abs (by omega)
      exact_mod_cast this
    have h3 : ((n - rne x : ℤ) : ℚ) = ((n : ℚ) - x) - ((rne x : ℚ) - x) := by push_cast; ring
    rw [h3] at h2
    have h4 := abs_sub ((n : ℚ) - x) ((rne x : ℚ) - x)
    linarith

theorem rne_tie (x : ℚ) (n : ℤ) (h : |(n : ℚ) - x| = |(rne x : ℚ) - x|) (hne : n ≠ rne x) :
    rne x % 2 = 0 ∧ |n - rne x| = 1 := by
  have h0 := Int.floor_le x
  have h1 := Int.lt_floor_add_one x
  have h2 : (1 : ℚ) ≤ |((n - rne x : ℤ) : ℚ)| := by
    have : (1 : ℤ) ≤ |n - rne x| := Int.one_le_abs (by omega)
    exact_mod_cast this
  have h3 : ((n - rne x : ℤ) : ℚ) = ((n : ℚ) - x) - ((rne x : ℚ) - x) := by push_cast; ring
  have h4 := abs_sub ((n : ℚ) - x) ((rne x : ℚ) - x)
  have herr := rne_err x
  have hhalf : |(rne x : ℚ) - x| = 1 / 2 := by
    rw [h3] at h2
    linarith
  have hone : |((n - rne x : ℤ) : ℚ)| = 1 := by
    refine _root_.le_antisymm ?_ h2
    rw [h3]; linarith
  have hone' : |n - rne x| = 1 := by exact_mod_cast hone
  refine ⟨?_, hone'⟩
  have hx : x - ⌊x⌋ = 1 / 2 := by
    have hb := rne_bounds x
    have : rne x = ⌊x⌋ ∨ rne x = ⌊x⌋ + 1 := by omega
    rcases this with e | e
    · rw [e, abs_sub_comm, abs_of_nonneg (by linarith)] at hhalf
      exact hhalf
    · rw [e] at hhalf
      push_cast at hhalf
      rw [abs_of_nonneg (by linarith)] at hhalf
      linarith
  unfold rne
  rw [if_neg (by rw [hx]; norm_num), if_neg (by rw [hx]; norm_num)]
  split <;> omega

theorem round_mult (q : ℚ) (n : ℤ) : |roundQ q - q| ≤ |n * 2 ^ ulpExp q - q| := by
  have h1 := two_zpow_pos (ulpExp q)
  have e1 : roundQ q - q = (rne (q / 2 ^ ulpExp q) - q / 2 ^ ulpExp q) * 2 ^ ulpExp q := by
    unfold roundQ; field_simp
  have e2 : n * 2 ^ ulpExp q - q = (n - q / 2 ^ ulpExp q) * 2 ^ ulpExp q := by field_simp
  rw [e1, e2, abs_mul, abs_mul]
  exact mul_le_mul_of_nonneg_right (rne_nearest _ n) (abs_nonneg _)

theorem grid_neg {r : ℚ} (h : Grid r) : Grid (-r) := by
  obtain ⟨m, e, hm, he, rfl⟩ := h
  exact ⟨-m, e, by rwa [abs_neg], he, by push_cast; ring⟩

theorem log_bounds {q : ℚ} (hq : 0 < q) : (2 : ℚ) ^ Int.log 2 q ≤ q ∧ q < 2 ^ (Int.log 2 q + 1) := by
  constructor
  · have := Int.zpow_log_le_self (b := 2) (by norm_num) hq; simpa using this
  · have := Int.lt_zpow_succ_log_self (b := 2) (by norm_num) q; simpa using this

/-- A number of the grid is a multiple of the unit of every number that is not larger. -/
theorem grid_mult {r q : ℚ} (hr : Grid r) (hq : 0 < q) (h : q ≤ r ∨ (2 : ℚ) ^ Int.log 2 q ≤ r ∨ ulpExp q = -1074) :
    ∃ n : ℤ, r = n * 2 ^ ulpExp q := by
  obtain ⟨m, e, hm, he, rfl⟩ := hr
  by_cases hsub : ulpExp q ≤ e
  · obtain ⟨k, hk⟩ := zpow_dvd (ulpExp q) e hsub
    exact ⟨m * k, by rw [hk]; push_cast; ring⟩
  · exfalso
    have hlog := log_bounds hq
    have hle : (2 : ℚ) ^ Int.log 2 q ≤ m * 2 ^ e := by
      rcases h with h | h | h
      · exact _root_.le_trans hlog.1 h
      · exact h
      · rw [h] at hsub; omega
    have hu : ulpExp q = Int.log 2 q - 52 := by
      unfold ulpExp at hsub ⊢
      rw [abs_of_pos hq] at hsub ⊢
      omega
    have hm' : (m : ℚ) ≤ 2 ^ (53 : ℤ) := by
      have h1 : m ≤ 2 ^ 53 := by
        have := le_abs_self m
        omega
      have h2 : ((m : ℤ) : ℚ) ≤ ((2 ^ 53 : ℤ) : ℚ) := by exact_mod_cast h1
      norm_num at h2 ⊢
      exact h2
    have hlt : (m : ℚ) < 2 ^ (53 : ℤ) := by
      have h1 : m < 2 ^ 53 := by
        have := le_abs_self m
        omega
      have h2 : ((m : ℤ) : ℚ) < ((2 ^ 53 : ℤ) : ℚ) := by exact_mod_cast h1
      norm_num at h2 ⊢
      exact h2
    have h3 : (m : ℚ) * 2 ^ e < 2 ^ (53 : ℤ) * 2 ^ e := mul_lt_mul_of_pos_right hlt (two_zpow_pos e)
    rw [← zpow_add₀ (by norm_num)] at h3
    have h4 : (2 : ℚ) ^ (53 + e) ≤ 2 ^ Int.log 2 q := zpow_le_zpow_right₀ (by norm_num) (by omega)
    linarith

theorem grid_round_pos {q : ℚ} (hq : 0 < q) : Grid (roundQ q) := by
  have hlog := log_bounds hq
  have hu := two_zpow_pos (ulpExp q)
  have hge : -1074 ≤ ulpExp q := by unfold ulpExp; omega
  have hge2 : Int.log 2 q - 52 ≤ ulpExp q := by unfold ulpExp; rw [abs_of_pos hq]; omega
  have h1 : q / 2 ^ ulpExp q ≤ ((2 ^ 53 : ℤ) : ℚ) := by
    rw [div_le_iff₀ hu]
    have : ((2 ^ 53 : ℤ) : ℚ) = 2 ^ (53 : ℤ) := by norm_num
    rw [this, ← zpow_add₀ (by norm_num)]
    refine _root_.le_trans hlog.2.le (zpow_le_zpow_right₀ (by norm_num) (by omega))
  have h2 := rne_mono h1
  rw [rne_int] at h2
  have h0 : 0 ≤ rne (q / 2 ^ ulpExp q) := rne_nonneg (div_nonneg hq.le hu.le)
  by_cases h3 : rne (q / 2 ^ ulpExp q) = 2 ^ 53
  · refine ⟨2 ^ 52, ulpExp q + 1, by norm_num, by omega, ?_⟩
    unfold roundQ
    rw [h3, zpow_add₀ (by norm_num)]
    push_cast
    ring
  · exact ⟨rne (q / 2 ^ ulpExp q), ulpExp q, by rw [abs_of_nonneg h0]; omega, hge, rfl⟩

theorem nearest_pos {q r : ℚ} (hq : 0 < q) (hr : Grid r) :
    |roundQ q - q| ≤ |r - q| ∧ (|r - q| = |roundQ q - q| → ∃ n : ℤ, r = n * 2 ^ ulpExp q) := by
  by_cases h : q ≤ r ∨ (2 : ℚ) ^ Int.log 2 q ≤ r ∨ ulpExp q = -1074
  · obtain ⟨n, hn⟩ := grid_mult hr hq h
    refine ⟨?_, fun _ => ⟨n, hn⟩⟩
    rw [hn]
    exact round_mult q n
  · simp only [not_or, not_le] at h
    obtain ⟨h1, h2, h3⟩ := h
    have hlog := log_bounds hq
    have hu : ulpExp q ≤ Int.log 2 q := by
      unfold ulpExp at h3 ⊢
      rw [abs_of_pos hq] at h3 ⊢
      omega
    obtain ⟨n, hn⟩ := zpow_dvd (ulpExp q) (Int.log 2 q) hu
    have h4 := round_mult q n
    rw [← hn, abs_sub_comm ((2 : ℚ) ^ Int.log 2 q), abs_of_nonneg (sub_nonneg.mpr hlog.1)] at h4
    have h5 : |r - q| = q - r := by rw [abs_sub_comm, abs_of_pos (by linarith)]
    rw [h5]
    refine ⟨by linarith, fun he => ?_⟩
    linarith

/-- C07, the arithmetic: rounding gives a number with 53 significant bits; no such number is nearer; if another one is
as near, the result is an even multiple of the distance between the two (ties to even). -/
theorem C07_round_to_nearest (q : ℚ) : Grid (roundQ q) ∧
    (∀ r, Grid r → |roundQ q - q| ≤ |r - q|) ∧
    ∀ r, Grid r → r ≠ roundQ q → |r - q| = |roundQ q - q| →
      ∃ m : ℤ, roundQ q = (2 * m) * |r - roundQ q| := by
  have tie : ∀ {q : ℚ}, 0 < q → ∀ r, Grid r → r ≠ roundQ q → |r - q| = |roundQ q - q| →
      ∃ m : ℤ, roundQ q = (2 * m) * |r - roundQ q| := by
    intro q hq r hr hne he
    obtain ⟨n, hn⟩ := (nearest_pos hq hr).2 he
    have hu := two_zpow_pos (ulpExp q)
    have e1 : roundQ q - q = (rne (q / 2 ^ ulpExp q) - q / 2 ^ ulpExp q) * 2 ^ ulpExp q := by
      unfold roundQ; field_simp
    have e2 : n * 2 ^ ulpExp q - q = (n - q / 2 ^ ulpExp q) * 2 ^ ulpExp q := by field_simp
    rw [hn, e1, e2, abs_mul, abs_mul] at he
    have he' := mul_right_cancel₀ (abs_pos.mpr hu.ne').ne' he
    have hne' : n ≠ rne (q / 2 ^ ulpExp q) := by
      intro e
      apply hne
      rw [hn, e]
      rfl
    obtain ⟨h1, h2⟩ := rne_tie _ n he' hne'
    have h3 : |r - roundQ q| = 2 ^ ulpExp q := by
      have : r - roundQ q = ((n - rne (q / 2 ^ ulpExp q) : ℤ) : ℚ) * 2 ^ ulpExp q := by
        rw [hn]; unfold roundQ; push_cast; ring
      rw [this, abs_mul, abs_of_pos hu]
      have : |((n - rne (q / 2 ^ ulpExp q) : ℤ) : ℚ)| = 1 := by exact_mod_cast h2
      rw [this, one_mul]
    refine ⟨rne (q / 2 ^ ulpExp q) / 2, ?_⟩
    rw [h3]
    have h4 : rne (q / 2 ^ ulpExp q) = 2 * (rne (q / 2 ^ ulpExp q) / 2) := by omega
    have h5 : (rne (q / 2 ^ ulpExp q) : ℚ) = 2 * ((rne (q / 2 ^ ulpExp q) / 2 : ℤ) : ℚ) := by exact_mod_cast h4
    rw [← h5]
    rfl
  rcases lt_trichotomy q 0 with hq | hq | hq
  · have hq' : 0 < -q := by linarith
    have hrn := roundQ_neg q
    refine ⟨?_, ?_, ?_⟩
    · have := grid_neg (grid_round_pos hq')
      rwa [hrn, neg_neg] at this
    · intro r hr
      have := (nearest_pos hq' (grid_neg hr)).1
      rw [hrn, show -roundQ q - -q = -(roundQ q - q) by ring, show -r - -q = -(r - q) by ring, abs_neg, abs_neg] at this
      exact this
    · intro r hr hne he
      obtain ⟨m, hm⟩ := tie hq' (-r) (grid_neg hr) (by rw [hrn]; intro e; exact hne (neg_injective e)) (by
        rw [hrn, show -roundQ q - -q = -(roundQ q - q) by ring, show -r - -q = -(r - q) by ring, abs_neg, abs_neg]
        exact he)
      rw [hrn, show -r - -roundQ q = -(r - roundQ q) by ring, abs_neg] at hm
      refine ⟨-m, ?_⟩
      push_cast
      linarith
  · subst hq
    rw [roundQ_zero]
    refine ⟨⟨0, 0, by norm_num, by norm_num, by simp⟩, fun r _ => by simp, fun r _ hne he => ?_⟩
    simp only [sub_zero, abs_zero, abs_eq_zero] at he
    exact absurd he hne
  · exact ⟨grid_round_pos hq, fun r hr => (nearest_pos hq hr).1, tie hq⟩

/-- C07, the arithmetic: the value a float64 takes is the rounded one unless that has 1025 or more bits, when it
is an infinity of the same sign. -/
theorem C07_overflow (q : ℚ) :
    (|roundQ q| < 2 ^ (1024 : ℕ) → fl q = .fin (roundQ q)) ∧
      (2 ^ (1024 : ℕ) ≤ |roundQ q| → fl q = .inf (decide (q < 0))) := by
  refine ⟨fun h => by rw [fl, if_pos h], fun h => ?_⟩
  rw [fl, if_neg (not_lt.mpr h)]
  have hpos : (0 : ℚ) < 2 ^ (1024 : ℕ) := by positivity
  have : (roundQ q < 0) ↔ q < 0 := by
    constructor
    · intro h1
      by_contra h2
      exact absurd (roundQ_nonneg (not_lt.mp h2)) (not_le.mpr h1)
    · intro h1
      have h2 := roundQ_nonneg (q := -q) (by linarith)
      rw [roundQ_neg] at h2
      rcases eq_or_lt_of_le h2 with h3 | h3
      · rw [neg_eq_zero.mp h3.symm, abs_zero] at h
        exact absurd h (not_le.mpr hpos)
      · linarith
  simp only [this]

/-- A tie: 2^53 + 1 lies between two numbers of the grid and goes to the even one. -/
example : Grid (2 ^ 53 + 2) ∧ (2 ^ 53 + 2 : ℚ) ≠ roundQ (2 ^ 53 + 1) ∧
    |(2 ^ 53 + 2 : ℚ) - (2 ^ 53 + 1)| = |roundQ (2 ^ 53 + 1) - (2 ^ 53 + 1)| := by
  have h : roundQ (2 ^ 53 + 1) = 2 ^ 53 := by decide +kernel
  rw [h]
  exact ⟨⟨2 ^ 52 + 1, 1, by norm_num, by norm_num, by norm_num⟩, by norm_num, by norm_num⟩

end Quark.Float
