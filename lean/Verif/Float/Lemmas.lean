import Verif.Float.Model

namespace Quark.Float

theorem rne_bounds (x : ℚ) : ⌊x⌋ ≤ rne x ∧ rne x ≤ ⌊x⌋ + 1 := by
  unfold rne
  split
  · omega
  · split
    · omega
    · split <;> omega

theorem rne_int (n : ℤ) : rne (n : ℚ) = n := by
  simp [rne]

theorem rne_err (x : ℚ) : |(rne x : ℚ) - x| ≤ 1 / 2 := by
  have h0 := Int.floor_le x
  have h1 := Int.lt_floor_add_one x
  rw [abs_le]
  unfold rne
  split
  · constructor <;> linarith
  · split
    · push_cast; constructor <;> linarith
    · split
      · constructor <;> linarith
      · push_cast; constructor <;> linarith

theorem rne_mono {x y : ℚ} (h : x ≤ y) : rne x ≤ rne y := by
  have hf := Int.floor_le_floor h
  rcases Int.lt_or_eq_of_le hf with hlt | heq
  · have := rne_bounds x
    have := rne_bounds y
    omega
  · unfold rne
    rw [← heq]
    have hxy : x - ⌊x⌋ ≤ y - ⌊x⌋ := by linarith
    by_cases h1 : x - ⌊x⌋ < 1/2
    · rw [if_pos h1]
      split
      · omega
      · split
        · omega
        · split <;> omega
    · have h2 : ¬ (y - ⌊x⌋ < 1/2) := by intro h; apply h1; linarith
      rw [if_neg h1, if_neg h2]
      by_cases h3 : 1/2 < x - ⌊x⌋
      · have h4 : 1/2 < y - ⌊x⌋ := by linarith
        rw [if_pos h3, if_pos h4]
      · rw [if_neg h3]
        split
        · split <;> omega
        · split <;> omega

theorem rne_neg (x : ℚ) : rne (-x) = - rne x := by
  have h0 := Int.floor_le x
  have h1 := Int.lt_floor_add_one x
  by_cases hi : x = ⌊x⌋
  · rw [hi]
    have : (-((⌊x⌋ : ℤ) : ℚ)) = ((-⌊x⌋ : ℤ) : ℚ) := by push_cast; ring
    rw [this, rne_int, rne_int]
  · have hlt : (⌊x⌋ : ℚ) < x := lt_of_le_of_ne h0 (Ne.symm hi)
    have hfl : ⌊-x⌋ = -⌊x⌋ - 1 := by
      rw [Int.floor_eq_iff]
      push_cast
      constructor <;> linarith
    unfold rne
    rw [hfl]
    push_cast
    by_cases h2 : x - ⌊x⌋ < 1/2
    · rw [if_pos h2, if_neg (by linarith), if_pos (by linarith)]; omega
    · rw [if_neg h2]
      by_cases h3 : 1/2 < x - ⌊x⌋
      · rw [if_pos h3, if_pos (by linarith)]; omega
      · rw [if_neg h3, if_neg (by linarith), if_neg (by linarith)]
        split <;> split <;> omega

theorem rne_nonneg {x : ℚ} (h : 0 ≤ x) : 0 ≤ rne x := by
  have := rne_mono h
  have h0 : rne 0 = 0 := by simpa using rne_int 0
  omega

theorem ulpExp_neg (q : ℚ) : ulpExp (-q) = ulpExp q := by simp [ulpExp]

theorem roundQ_neg (q : ℚ) : roundQ (-q) = - roundQ q := by
  unfold roundQ
  rw [ulpExp_neg, neg_div, rne_neg]
  push_cast; ring

theorem roundQ_zero : roundQ 0 = 0 := by
  have h0 : rne 0 = 0 := by simpa using rne_int 0
  simp [roundQ, h0]

theorem two_zpow_pos (e : ℤ) : (0 : ℚ) < 2 ^ e := zpow_pos (by norm_num) e

theorem roundQ_nonneg {q : ℚ} (h : 0 ≤ q) : 0 ≤ roundQ q := by
  unfold roundQ
  have h1 := two_zpow_pos (ulpExp q)
  have h2 : 0 ≤ rne (q / 2 ^ ulpExp q) := rne_nonneg (div_nonneg h h1.le)
  have h3 : (0 : ℚ) ≤ (rne (q / 2 ^ ulpExp q) : ℚ) := by exact_mod_cast h2
  positivity

/-- Rounding is exact on integral multiples of the unit in the last place. -/
theorem roundQ_exact (q : ℚ) (n : ℤ) (h : q = n * 2 ^ ulpExp q) : roundQ q = q := by
  unfold roundQ
  have h1 := two_zpow_pos (ulpExp q)
  have : q / 2 ^ ulpExp q = n := by
    rw [div_eq_iff h1.ne']; exact h
  rw [this, rne_int, ← h]

theorem ulpExp_mono {x y : ℚ} (hx : 0 < x) (h : x ≤ y) : ulpExp x ≤ ulpExp y := by
  unfold ulpExp
  rw [abs_of_pos hx, abs_of_pos (lt_of_lt_of_le hx h)]
  have := Int.log_mono_right (b := 2) hx h
  omega

theorem zpow_dvd (a b : ℤ) (h : a ≤ b) : ∃ n : ℤ, (2 : ℚ) ^ b = n * 2 ^ a := by
  refine ⟨2 ^ (b - a).toNat, ?_⟩
  push_cast
  rw [← zpow_natCast, Int.toNat_of_nonneg (by omega), ← zpow_add₀ (by norm_num)]
  congr 1; omega

theorem roundQ_le_of_le_mult {x : ℚ} (n : ℤ) (h : x ≤ n * 2 ^ ulpExp x) :
    roundQ x ≤ n * 2 ^ ulpExp x := by
  have h1 := two_zpow_pos (ulpExp x)
  unfold roundQ
  have : x / 2 ^ ulpExp x ≤ n := by rwa [div_le_iff₀ h1]
  have h2 := rne_mono this
  rw [rne_int] at h2
  have h3 : (rne (x / 2 ^ ulpExp x) : ℚ) ≤ n := by exact_mod_cast h2
  exact mul_le_mul_of_nonneg_right h3 h1.le

theorem mult_le_roundQ_of_le {x : ℚ} (n : ℤ) (h : n * 2 ^ ulpExp x ≤ x) :
    n * 2 ^ ulpExp x ≤ roundQ x := by
  have h1 := two_zpow_pos (ulpExp x)
  unfold roundQ
  have : (n : ℚ) ≤ x / 2 ^ ulpExp x := by rwa [le_div_iff₀ h1]
  have h2 := rne_mono this
  rw [rne_int] at h2
  have h3 : (n : ℚ) ≤ (rne (x / 2 ^ ulpExp x) : ℚ) := by exact_mod_cast h2
  exact mul_le_mul_of_nonneg_right h3 h1.le

theorem roundQ_mono_pos {x y : ℚ} (hx : 0 < x) (h : x ≤ y) : roundQ x ≤ roundQ y := by
  have hy : 0 < y := lt_of_lt_of_le hx h
  rcases Int.lt_or_eq_of_le (ulpExp_mono hx h) with hlt | heq
  · -- a power of two separates the two
    have hlog : Int.log 2 x < Int.log 2 y := by
      by_contra hcon
      have : Int.log 2 y = Int.log 2 x := by
        have := Int.log_mono_right (b := 2) hx h; omega
      unfold ulpExp at hlt
      rw [abs_of_pos hx, abs_of_pos hy, this] at hlt
      omega
    have hx2 : x < 2 ^ (Int.log 2 x + 1) := by
      have := Int.lt_zpow_succ_log_self (b := 2) (by norm_num) x; simpa using this
    have hy2 : (2 : ℚ) ^ (Int.log 2 y) ≤ y := by
      have := Int.zpow_log_le_self (b := 2) (by norm_num) hy; simpa using this
    have hux : ulpExp x ≤ Int.log 2 y := by
      unfold ulpExp at *
      rw [abs_of_pos hx, abs_of_pos hy] at *
      omega
    have huy : ulpExp y ≤ Int.log 2 y := by
      unfold ulpExp at *
      rw [abs_of_pos hx, abs_of_pos hy] at *
      omega
    obtain ⟨n, hn⟩ := zpow_dvd (ulpExp x) (Int.log 2 y) hux
    obtain ⟨m, hm⟩ := zpow_dvd (ulpExp y) (Int.log 2 y) huy
    have hle : (2 : ℚ) ^ (Int.log 2 x + 1) ≤ 2 ^ (Int.log 2 y) :=
      zpow_le_zpow_right₀ (by norm_num) (by omega)
    have h1 : roundQ x ≤ 2 ^ (Int.log 2 y) := by
      rw [hn]; apply roundQ_le_of_le_mult; rw [← hn]; linarith
    have h2 : (2 : ℚ) ^ (Int.log 2 y) ≤ roundQ y := by
      rw [hm]; apply mult_le_roundQ_of_le; rw [← hm]; exact hy2
    linarith
  · unfold roundQ
    rw [← heq]
    have h1 := two_zpow_pos (ulpExp x)
    have h2 : rne (x / 2 ^ ulpExp x) ≤ rne (y / 2 ^ ulpExp x) :=
      rne_mono (div_le_div_of_nonneg_right h h1.le)
    have h3 : (rne (x / 2 ^ ulpExp x) : ℚ) ≤ (rne (y / 2 ^ ulpExp x) : ℚ) := by exact_mod_cast h2
    exact mul_le_mul_of_nonneg_right h3 h1.le

theorem roundQ_mono {x y : ℚ} (h : x ≤ y) : roundQ x ≤ roundQ y := by
  rcases lt_or_ge 0 x with hx | hx
  · exact roundQ_mono_pos hx h
  · rcases lt_or_ge y 0 with hy | hy
    · have := roundQ_mono_pos (x := -y) (y := -x) (by linarith) (by linarith)
      rw [roundQ_neg, roundQ_neg] at this
      linarith
    · have h1 := roundQ_nonneg hy
      have h2 := roundQ_nonneg (q := -x) (by linarith)
      rw [roundQ_neg] at h2
      linarith

theorem roundQ_abs (q : ℚ) : |roundQ q| = roundQ |q| := by
  rcases le_total 0 q with h | h
  · rw [abs_of_nonneg h, abs_of_nonneg (roundQ_nonneg h)]
  · have h2 := roundQ_nonneg (q := -q) (by linarith)
    rw [abs_of_nonpos h, roundQ_neg, abs_of_nonpos]
    rw [roundQ_neg] at h2; linarith

/-- Every rounded value is a multiple of the smallest subnormal. -/
theorem roundQ_mult (q : ℚ) : ∃ n : ℤ, roundQ q = n * 2 ^ (-1074 : ℤ) := by
  obtain ⟨k, hk⟩ := zpow_dvd (-1074) (ulpExp q) (by unfold ulpExp; omega)
  refine ⟨rne (q / 2 ^ ulpExp q) * k, ?_⟩
  unfold roundQ
  rw [hk]; push_cast; ring

theorem roundQ_tiny : roundQ (2 ^ (-1074 : ℤ)) = 2 ^ (-1074 : ℤ) := by
  have h : ulpExp ((2 : ℚ) ^ (-1074 : ℤ)) = -1074 := by
    unfold ulpExp
    rw [abs_of_pos (two_zpow_pos _)]
    have : Int.log 2 ((2 : ℚ) ^ (-1074 : ℤ)) = -1074 := by
      have := Int.log_zpow (R := ℚ) (b := 2) (by norm_num) (-1074)
      simpa using this
    rw [this]; rfl
  apply roundQ_exact _ 1
  rw [h]; simp

/-- Rounding error bound: relative 2^-53 plus absolute 2^-1075. -/
theorem roundQ_err (q : ℚ) (hq : 0 ≤ q) :
    |roundQ q - q| ≤ q / 2 ^ (53 : ℕ) + 1 / 2 ^ (1075 : ℕ) := by
  rcases eq_or_lt_of_le hq with h0 | hpos
  · rw [← h0, roundQ_zero]; simp
  have h1 := two_zpow_pos (ulpExp q)
  have herr : |roundQ q - q| ≤ 1 / 2 * 2 ^ ulpExp q := by
    have : roundQ q - q = (rne (q / 2 ^ ulpExp q) - q / 2 ^ ulpExp q) * 2 ^ ulpExp q := by
      unfold roundQ; field_simp
    rw [this, abs_mul, abs_of_pos h1]
    exact mul_le_mul_of_nonneg_right (rne_err _) h1.le
  have hulp : (2 : ℚ) ^ ulpExp q ≤ q / 2 ^ (52 : ℕ) + 1 / 2 ^ (1074 : ℕ) := by
    have hy2 : (2 : ℚ) ^ (Int.log 2 q) ≤ q := by
      have := Int.zpow_log_le_self (b := 2) (by norm_num) hpos; simpa using this
    unfold ulpExp
    rw [abs_of_pos hpos]
    rcases le_total (Int.log 2 q - 52) (-1074) with h | h
    · rw [max_eq_right h]
      have h2 : (2 : ℚ) ^ (-1074 : ℤ) = 1 / 2 ^ (1074 : ℕ) := by
        rw [zpow_neg, one_div]; norm_cast
      rw [h2]
      have : 0 ≤ q / 2 ^ (52 : ℕ) := by positivity
      linarith
    · rw [max_eq_left h, zpow_sub₀ (by norm_num)]
      have h2 : (2 : ℚ) ^ (52 : ℤ) = 2 ^ (52 : ℕ) := by norm_cast
      rw [h2]
      have h3 : (2 : ℚ) ^ Int.log 2 q / 2 ^ (52 : ℕ) ≤ q / 2 ^ (52 : ℕ) :=
        div_le_div_of_nonneg_right hy2 (by positivity)
      have : (0 : ℚ) ≤ 1 / 2 ^ (1074 : ℕ) := by positivity
      linarith
  have e1 : q / 2 ^ (53 : ℕ) = 1 / 2 * (q / 2 ^ (52 : ℕ)) := by
    rw [show (53 : ℕ) = 52 + 1 from rfl, pow_succ]; field_simp
  have e2 : (1 : ℚ) / 2 ^ (1075 : ℕ) = 1 / 2 * (1 / 2 ^ (1074 : ℕ)) := by
    rw [show (1075 : ℕ) = 1074 + 1 from rfl, pow_succ]; field_simp
  rw [e1, e2]
  linarith

/-! ### `fl` and comparisons -/

theorem le_refl' (x : F64) (h : x ≠ .nan) : x.le x = true := by
  match x with
  | .fin a => simp [F64.le]
  | .inf true => rfl
  | .inf false => rfl

theorem le_trans' {x y z : F64} (h1 : x.le y = true) (h2 : y.le z = true) : x.le z = true := by
  match x, y, z with
  | .fin a, .fin b, .fin c =>
    simp only [F64.le, decide_eq_true_eq] at *
    exact _root_.le_trans h1 h2
  | .nan, _, _ => simp [F64.le] at h1
  | .fin _, .nan, _ => simp [F64.le] at h1
  | .inf true, .nan, _ => simp [F64.le] at h1
  | .inf false, .nan, _ => simp [F64.le] at h1
  | .fin _, .fin _, .nan => simp [F64.le] at h2
  | .fin _, .inf true, _ => simp [F64.le] at h1
  | .fin _, .inf false, .fin _ => simp [F64.le] at h2
  | .fin _, .inf false, .inf true => simp [F64.le] at h2
  | .fin _, .inf false, .nan => simp [F64.le] at h2
  | .fin _, _, .inf false => rfl
  | .fin _, .fin _, .inf true => simp [F64.le] at h2
  | .inf true, .fin _, .nan => simp [F64.le] at h2
  | .inf true, .inf true, .nan => simp [F64.le] at h2
  | .inf true, .inf false, .nan => simp [F64.le] at h2
  | .inf true, _, .fin _ => rfl
  | .inf true, _, .inf true => rfl
  | .inf true, _, .inf false => rfl
  | .inf false, .fin _, _ => simp [F64.le] at h1
  | .inf false, .inf true, _ => simp [F64.le] at h1
  | .inf false, .inf false, .fin _ => simp [F64.le] at h2
  | .inf false, .inf false, .inf true => simp [F64.le] at h2
  | .inf false, .inf false, .inf false => rfl
  | .inf false, .inf false, .nan => simp [F64.le] at h2

theorem fl_mono {x y : ℚ} (h : x ≤ y) : (fl x).le (fl y) = true := by
  have hm := roundQ_mono h
  unfold fl
  by_cases hx : |roundQ x| < 2 ^ (1024 : ℕ)
  · rw [if_pos hx]
    by_cases hy : |roundQ y| < 2 ^ (1024 : ℕ)
    · rw [if_pos hy]; simpa [F64.le] using hm
    · rw [if_neg hy]
      have : ¬ roundQ y < 0 := by
        intro hneg
        apply hy
        rw [abs_of_neg hneg]
        have := neg_abs_le (roundQ x)
        linarith
      simp [this, F64.le]
  · rw [if_neg hx]
    by_cases hneg : roundQ x < 0
    · simp only [hneg, decide_true]
      split <;> simp [F64.le]
    · simp only [hneg, decide_false]
      have hx0 : 0 ≤ roundQ x := not_lt.mp hneg
      rw [abs_of_nonneg hx0] at hx
      have hy : ¬ |roundQ y| < 2 ^ (1024 : ℕ) := by
        rw [abs_of_nonneg (_root_.le_trans hx0 hm)]; intro h; exact hx (lt_of_le_of_lt hm h)
      have hy2 : ¬ roundQ y < 0 := not_lt.mpr (_root_.le_trans hx0 hm)
      rw [if_neg hy]
      simp [hy2, F64.le]

theorem abs_fl (q : ℚ) : (fl q).abs = fl |q| := by
  unfold fl
  rw [← roundQ_abs, abs_abs]
  have : ¬ |roundQ q| < 0 := not_lt.mpr (abs_nonneg _)
  split <;> simp [F64.abs, this]

/-- `tol` is exactly representable as a finite float64. -/
def IsFloat64 (tol : ℚ) : Prop := fl tol = .fin tol

theorem fl_ne_nan (q : ℚ) : fl q ≠ .nan := by unfold fl; split <;> simp

end Quark.Float
