import Verif.Float.Lemmas
import Mathlib.Tactic.NormNum

/-! Properties C06 and C07: comparison of numeric tokens under binary64 rounding. -/
namespace Quark.Float

theorem parse_fin {a : List UInt8} {f : F64} (h : parseFloat a = some f) :
    ∃ v, decimalValue a = some v ∧ f = .fin (roundQ v) := by
  unfold parseFloat at h
  match hd : decimalValue a with
  | none => rw [hd] at h; cases h
  | some v =>
    rw [hd] at h
    refine ⟨v, rfl, ?_⟩
    unfold fl at h
    by_cases hx : |roundQ v| < 2 ^ (1024 : ℕ)
    · simp only [if_pos hx] at h; exact (Option.some.inj h).symm
    · simp only [if_neg hx] at h; cases h

theorem numericEquals_fin (a b tol : ℚ) : numericEquals (.fin a) (.fin b) tol =
    if a = b then true
    else if (fl |b - a|).le (fl (3 / 2 * tol)) then true
    else if a = 0 ∨ b = 0 ∨ (fl |b - a|).lt (.fin smallestNormal) = true then
      (fl |b - a|).le (fl (tol * smallestNormal))
    else ((fl |b - a|).div (.fin (max |a| |b|))).le (.fin tol) := by
  have heq : ∀ x y : ℚ, (F64.fin x).eq (.fin y) = decide (x = y) := by
    intro x y
    rw [Bool.eq_iff_iff]
    show (decide (x ≤ y) && decide (y ≤ x)) = true ↔ _
    rw [Bool.and_eq_true, decide_eq_true_eq, decide_eq_true_eq, decide_eq_true_eq]
    exact ⟨fun h => le_antisymm h.1 h.2, fun h => ⟨h.le, h.ge⟩⟩
  have hmax : F64.max (.fin |a|) (.fin |b|) = .fin (max |a| |b|) := by
    simp only [F64.max, max_def]
  unfold numericEquals
  have habs : ∀ x : ℚ, (F64.fin x).abs = .fin |x| := fun _ => rfl
  simp only [heq, F64.sub, abs_fl, F64.mul, habs, hmax]
  simp only [decide_eq_true_eq, Bool.or_eq_true, or_assoc]

theorem numericEquals_symm (a b tol : ℚ) :
    numericEquals (.fin a) (.fin b) tol = numericEquals (.fin b) (.fin a) tol := by
  rw [numericEquals_fin, numericEquals_fin, abs_sub_comm b a, max_comm |a| |b|]
  have h1 : (a = b) = (b = a) := propext eq_comm
  have h2 : (a = 0 ∨ b = 0 ∨ (fl |a - b|).lt (.fin smallestNormal) = true)
      = (b = 0 ∨ a = 0 ∨ (fl |a - b|).lt (.fin smallestNormal) = true) := propext or_left_comm
  simp only [h1, h2]

/-- **C06** The comparison does not depend on which output is the expected one. -/
theorem C06_symmetric (a b : List UInt8) (tol : ℚ) :
    tokenNumericEquals a b tol = tokenNumericEquals b a tol := by
  unfold tokenNumericEquals
  rcases ha : parseFloat a with _ | fa <;> rcases hb : parseFloat b with _ | fb
  · rfl
  · rfl
  · rfl
  · obtain ⟨va, -, rfl⟩ := parse_fin ha
    obtain ⟨vb, -, rfl⟩ := parse_fin hb
    exact numericEquals_symm _ _ _

/-- **C06** Tokens denoting the same decimal number (in particular identical tokens) match
under every tolerance, even a negative one. -/
theorem C06_same_decimal_value (a b : List UInt8) (tol : ℚ)
    (h : decimalValue a = decimalValue b) : tokenNumericEquals a b tol = true := by
  unfold tokenNumericEquals
  have hp : parseFloat a = parseFloat b := by unfold parseFloat; rw [h]
  rw [hp]
  rcases hb : parseFloat b with _ | fb
  · rfl
  · obtain ⟨vb, -, rfl⟩ := parse_fin hb
    simp only
    rw [numericEquals_fin, if_pos rfl]

/-- **C06** Identical tokens match. -/
theorem C06_reflexive (a : List UInt8) (tol : ℚ) : tokenNumericEquals a a tol = true :=
  C06_same_decimal_value a a tol rfl

theorem smallestNormal_pos : 0 < smallestNormal := by unfold smallestNormal; positivity

/-- **C06** A pair accepted under a tolerance stays accepted under every larger one. -/
theorem C06_monotone (a b : List UInt8) (tol tol' : ℚ) (ht : tol ≤ tol')
    (h : tokenNumericEquals a b tol = true) : tokenNumericEquals a b tol' = true := by
  unfold tokenNumericEquals at *
  rcases ha : parseFloat a with _ | fa <;> rcases hb : parseFloat b with _ | fb <;>
    simp only [ha, hb] at h ⊢
  · cases h
  · cases h
  · obtain ⟨va, -, rfl⟩ := parse_fin ha
    obtain ⟨vb, -, rfl⟩ := parse_fin hb
    rw [numericEquals_fin] at h ⊢
    split at h
    · rename_i h0; rw [if_pos h0]
    · rename_i h0
      rw [if_neg h0]
      split at h
      · rename_i h1
        rw [if_pos (le_trans' h1 (fl_mono (by linarith)))]
      · split
        · rfl
        · split at h
          · rename_i h2
            rw [if_pos h2]
            refine le_trans' h (fl_mono ?_)
            exact mul_le_mul_of_nonneg_right ht smallestNormal_pos.le
          · rename_i h2
            rw [if_neg h2]
            exact le_trans' h (by simpa [F64.le] using ht)

/-- The parsed value of a token (`none`: `ParseFloat` reports an error). -/
def parsed (a : List UInt8) : Option ℚ :=
  match parseFloat a with
  | some (.fin q) => some q
  | _ => none

theorem parsed_some {a : List UInt8} {x : ℚ} (h : parsed a = some x) :
    parseFloat a = some (.fin x) ∧ ∃ v, decimalValue a = some v ∧ x = roundQ v := by
  unfold parsed at h
  split at h
  · rename_i q hq
    cases h
    obtain ⟨v, hv, he⟩ := parse_fin hq
    exact ⟨hq, v, hv, by injection he⟩
  · cases h

theorem parsed_none {a : List UInt8} (h : parsed a = none) : parseFloat a = none := by
  rcases hp : parseFloat a with _ | f
  · rfl
  · obtain ⟨v, -, rfl⟩ := parse_fin hp
    simp [parsed, hp] at h

/-- **C07** A token that is not a number (or is out of range) only matches tokens that are not
numbers either. -/
theorem C07_unparseable (a b : List UInt8) (tol : ℚ) (h : parsed a = none) :
    tokenNumericEquals a b tol = true ↔ parsed b = none := by
  unfold tokenNumericEquals
  rw [parsed_none h]
  rcases hb : parseFloat b with _ | f
  · simp [parsed, hb]
  · obtain ⟨v, -, rfl⟩ := parse_fin hb
    simp [parsed, hb]

theorem tokenNumericEquals_parsed {a b : List UInt8} {x y : ℚ} (tol : ℚ)
    (ha : parsed a = some x) (hb : parsed b = some y) :
    tokenNumericEquals a b tol = numericEquals (.fin x) (.fin y) tol := by
  unfold tokenNumericEquals
  rw [(parsed_some ha).1, (parsed_some hb).1]

theorem roundQ_pow (k : ℤ) (hk : -1074 ≤ k) : roundQ (2 ^ k) = 2 ^ k := by
  have hlog : Int.log 2 ((2 : ℚ) ^ k) = k := by
    have := Int.log_zpow (R := ℚ) (b := 2) (by norm_num) k
    simpa using this
  have hle : ulpExp ((2 : ℚ) ^ k) ≤ k := by
    unfold ulpExp
    rw [abs_of_pos (two_zpow_pos _), hlog]; omega
  obtain ⟨n, hn⟩ := zpow_dvd _ _ hle
  exact roundQ_exact _ n hn

/-- A rounded value above a power of two is a multiple of the corresponding unit. -/
theorem roundQ_mult_of_gt (v : ℚ) (k : ℤ) (hk : -1074 ≤ k) (h : 2 ^ k < |roundQ v|) :
    ∃ n : ℤ, roundQ v = n * 2 ^ (k - 52) := by
  have hv : (2 : ℚ) ^ k ≤ |v| := by
    by_contra hcon
    have := roundQ_mono (le_of_lt (not_le.mp hcon))
    rw [roundQ_pow k hk, ← roundQ_abs] at this
    exact absurd h (not_lt.mpr this)
  have hpos : 0 < |v| := lt_of_lt_of_le (two_zpow_pos k) hv
  have hl : k ≤ Int.log 2 |v| := by
    rw [← Int.zpow_le_iff_le_log (b := 2) (by norm_num) hpos]
    simpa using hv
  obtain ⟨n, hn⟩ := zpow_dvd (k - 52) (ulpExp v) (by unfold ulpExp; omega)
  refine ⟨rne (v / 2 ^ ulpExp v) * n, ?_⟩
  unfold roundQ
  rw [hn]; push_cast; ring

/-- Two different parsed values, one of them above 1, differ by at least 2^-60. -/
theorem spread (v w : ℚ) (hne : roundQ v ≠ roundQ w) (h1 : 1 < |roundQ v|) :
    (2 : ℚ) ^ (-60 : ℤ) ≤ |roundQ w - roundQ v| := by
  by_cases hw : (2 : ℚ) ^ (-1 : ℤ) < |roundQ w|
  · obtain ⟨n, hn⟩ := roundQ_mult_of_gt w (-1) (by norm_num) hw
    obtain ⟨m, hm⟩ := roundQ_mult_of_gt v (-1) (by norm_num)
      (lt_of_le_of_lt (by norm_num) h1)
    have hnm : n - m ≠ 0 := by
      intro h; apply hne; rw [hn, hm, show n = m by omega]
    have h2 : roundQ w - roundQ v = ((n - m : ℤ) : ℚ) * 2 ^ (-1 - 52 : ℤ) := by
      rw [hn, hm]; push_cast; ring
    rw [h2, abs_mul, abs_of_pos (two_zpow_pos _)]
    have h3 : (1 : ℚ) ≤ |((n - m : ℤ) : ℚ)| := by
      have : (1 : ℤ) ≤ |n - m| := Int.one_le_abs hnm
      exact_mod_cast this
    have h4 : (2 : ℚ) ^ (-60 : ℤ) ≤ 2 ^ (-1 - 52 : ℤ) :=
      zpow_le_zpow_right₀ (by norm_num) (by norm_num)
    calc (2 : ℚ) ^ (-60 : ℤ) ≤ 1 * 2 ^ (-1 - 52 : ℤ) := by rw [one_mul]; exact h4
      _ ≤ _ := mul_le_mul_of_nonneg_right h3 (two_zpow_pos _).le
  · have hw' : |roundQ w| ≤ 2 ^ (-1 : ℤ) := not_lt.mp hw
    have h2 : (2 : ℚ) ^ (-1 : ℤ) = 1 / 2 := by norm_num
    rw [h2] at hw'
    have h3 : |roundQ v| - |roundQ w| ≤ |roundQ w - roundQ v| := by
      rw [abs_sub_comm]; exact abs_sub_abs_le_abs_sub _ _
    have h4 : (2 : ℚ) ^ (-60 : ℤ) ≤ 1 / 2 := by norm_num
    exact _root_.le_trans h4 (by linarith)

/-- The rounded relative error of the comparison. -/
def relError (x y : ℚ) : F64 := (fl |y - x|).div (.fin (max |x| |y|))

theorem isFloat64_round {tol : ℚ} (h : IsFloat64 tol) : roundQ tol = tol := by
  unfold IsFloat64 fl at h
  split at h
  · injection h
  · cases h

/-- **C07** Characterization: two different parsed values are accepted iff the rounded difference
is at most the rounded `1.5 * tolerance`, or both are non-zero and the rounded relative error is
at most the tolerance. -/
theorem C07_characterization (a b : List UInt8) (x y tol : ℚ) (ha : parsed a = some x)
    (hb : parsed b = some y) (hxy : x ≠ y) (htol : 0 ≤ tol) (hf : IsFloat64 tol) :
    tokenNumericEquals a b tol = true ↔
      (fl |y - x|).le (fl (3 / 2 * tol)) = true ∨
      (x ≠ 0 ∧ y ≠ 0 ∧ (relError x y).le (.fin tol) = true) := by
  obtain ⟨-, v, -, hv⟩ := parsed_some ha
  obtain ⟨-, w, -, hw⟩ := parsed_some hb
  have hsn : smallestNormal ≤ 1 := by
    unfold smallestNormal
    rw [div_le_one (by positivity)]; exact one_le_pow₀ (by norm_num)
  rw [tokenNumericEquals_parsed tol ha hb, numericEquals_fin, if_neg hxy]
  by_cases h1 : (fl |y - x|).le (fl (3 / 2 * tol)) = true
  · simp [h1]
  · rw [if_neg h1]
    simp only [h1, Bool.false_eq_true, false_or]
    by_cases h2 : x = 0 ∨ y = 0 ∨ (fl |y - x|).lt (.fin smallestNormal) = true
    · rw [if_pos h2]
      constructor
      · intro h
        exfalso; apply h1
        refine le_trans' h (fl_mono ?_)
        have : tol * smallestNormal ≤ tol * 1 := mul_le_mul_of_nonneg_left hsn htol
        linarith
      · intro hh
        have hx := hh.1
        have hy := hh.2.1
        have hrel := hh.2.2
        exfalso
        rcases h2 with h2 | h2 | h2
        · exact hx h2
        · exact hy h2
        · -- the difference is tiny, so the larger value is at most 1 and the tolerance covers it
          have hmpos : 0 < max |x| |y| := lt_of_lt_of_le (abs_pos.mpr hx) (le_max_left _ _)
          have hfin : fl |y - x| = .fin (roundQ |y - x|) := by
            unfold fl
            by_cases hlt : |roundQ (|y - x|)| < 2 ^ (1024 : ℕ)
            · rw [if_pos hlt]
            · exfalso
              unfold fl at h2
              rw [if_neg hlt, decide_eq_false (not_lt.mpr (roundQ_nonneg (abs_nonneg _)))] at h2
              simp [F64.lt, F64.le] at h2
          have hd : roundQ |y - x| < smallestNormal := by
            rw [hfin] at h2
            simp only [F64.lt, F64.le, Bool.and_eq_true, Bool.not_eq_true', decide_eq_true_eq,
              decide_eq_false_iff_not] at h2
            exact not_le.mp h2.2
          have hm1 : max |x| |y| ≤ 1 := by
            by_contra hcon
            have hbig : (2 : ℚ) ^ (-60 : ℤ) ≤ |y - x| := by
              have hxy' : roundQ v ≠ roundQ w := by rw [← hv, ← hw]; exact hxy
              rcases lt_max_iff.mp (not_le.mp hcon) with hc | hc
              · rw [hv] at hc; rw [hv, hw]; exact spread v w hxy' hc
              · rw [hw] at hc; rw [abs_sub_comm, hv, hw]; exact spread w v (Ne.symm hxy') hc
            have h3 := roundQ_mono hbig
            rw [roundQ_pow _ (by norm_num)] at h3
            have h4 : smallestNormal ≤ 2 ^ (-60 : ℤ) := by
              unfold smallestNormal
              rw [zpow_neg, ← one_div]
              apply one_div_le_one_div_of_le (by positivity)
              have : (2 : ℚ) ^ (60 : ℤ) = 2 ^ (60 : ℕ) := by norm_cast
              rw [this]
              exact pow_le_pow_right₀ (by norm_num) (by norm_num)
            exact absurd hd (not_lt.mpr (_root_.le_trans h4 h3))
          apply h1
          -- fl(d') with d' = rounded difference; d' ≤ d' / max
          have hrel' : (fl (roundQ |y - x| / max |x| |y|)).le (.fin tol) = true := by
            have := hrel
            unfold relError at this
            rw [hfin] at this
            simpa [F64.div, hmpos.ne'] using this
          have h5 : |y - x| / max |x| |y| ≥ |y - x| := by
            rw [ge_iff_le, le_div_iff₀ hmpos]
            have := abs_nonneg (y - x)
            calc |y - x| * max |x| |y| ≤ |y - x| * 1 := mul_le_mul_of_nonneg_left hm1 this
              _ = _ := mul_one _
          -- the difference of two subnormal-range multiples is itself exact here
          have h6 : roundQ |y - x| ≤ roundQ |y - x| / max |x| |y| := by
            have h0 : 0 ≤ roundQ |y - x| := roundQ_nonneg (abs_nonneg _)
            rw [le_div_iff₀ hmpos]
            calc roundQ |y - x| * max |x| |y| ≤ roundQ |y - x| * 1 :=
                  mul_le_mul_of_nonneg_left hm1 h0
              _ = _ := mul_one _
          have hle : tol ≤ 3 / 2 * tol := by linarith
          have h8 : (fl (roundQ |y - x|)).le (.fin tol) = true := le_trans' (fl_mono h6) hrel'
          have h9 : roundQ (roundQ |y - x|) = roundQ |y - x| := by
            obtain ⟨n, hn⟩ := roundQ_mult |y - x|
            have h0 : 0 ≤ roundQ |y - x| := roundQ_nonneg (abs_nonneg _)
            have hu : ulpExp (roundQ |y - x|) = -1074 := by
              unfold ulpExp
              rw [abs_of_nonneg h0]
              rcases eq_or_lt_of_le h0 with hz | hp
              · rw [← hz, Int.log_zero_right]; exfalso
                have : (2 : ℚ) ^ (-1074 : ℤ) ≤ |y - x| := by
                  obtain ⟨n1, e1⟩ := roundQ_mult v
                  obtain ⟨n2, e2⟩ := roundQ_mult w
                  have hne : n2 - n1 ≠ 0 := by
                    intro h; apply hxy; rw [hv, hw, e1, e2, show n2 = n1 by omega]
                  rw [hv, hw, e1, e2, ← sub_mul, abs_mul, abs_of_pos (two_zpow_pos _)]
                  have h3 : (1 : ℚ) ≤ |(n2 : ℚ) - n1| := by
                    have : (1 : ℤ) ≤ |n2 - n1| := Int.one_le_abs hne
                    exact_mod_cast this
                  calc (2 : ℚ) ^ (-1074 : ℤ) = 1 * 2 ^ (-1074 : ℤ) := (one_mul _).symm
                    _ ≤ _ := mul_le_mul_of_nonneg_right h3 (two_zpow_pos _).le
                have h4 := roundQ_mono this
                rw [roundQ_tiny, ← hz] at h4
                exact absurd h4 (not_le.mpr (two_zpow_pos _))
              · have hlt : Int.log 2 (roundQ |y - x|) < -1022 := by
                  rw [← Int.lt_zpow_iff_log_lt (b := 2) (by norm_num) hp]
                  have : smallestNormal = 2 ^ (-1022 : ℤ) := by
                    unfold smallestNormal; rw [zpow_neg, one_div]; norm_cast
                  rw [this] at hd
                  exact_mod_cast hd
                omega
            exact roundQ_exact _ n (by rw [hu]; exact hn)
          refine le_trans' ?_ (le_trans' h8 ?_)
          · rw [hfin]; unfold fl; rw [h9]
            have hlt : |roundQ (|y - x|)| < 2 ^ (1024 : ℕ) := by
              by_contra hcon
              unfold fl at hfin
              rw [if_neg hcon] at hfin
              cases hfin
            rw [if_pos hlt]
            exact le_refl' _ (by simp)
          · have := fl_mono hle
            rw [hf] at this
            exact this
    · rw [if_neg h2]
      have hx : x ≠ 0 := fun h => h2 (Or.inl h)
      have hy : y ≠ 0 := fun h => h2 (Or.inr (Or.inl h))
      simp [hx, hy, relError]

/-- **C07** Completeness: parsed values within absolute error `tolerance` always match. -/
theorem C07_within_tolerance_accepted (a b : List UInt8) (x y tol : ℚ) (ha : parsed a = some x)
    (hb : parsed b = some y) (hf : IsFloat64 tol) (h : |y - x| ≤ tol) :
    tokenNumericEquals a b tol = true := by
  have htol : 0 ≤ tol := _root_.le_trans (abs_nonneg _) h
  rw [tokenNumericEquals_parsed tol ha hb, numericEquals_fin]
  split
  · rfl
  · rw [if_pos]
    exact le_trans' (fl_mono h) (fl_mono (by linarith))

/-- Two different parsed values have a positive rounded difference (gradual underflow). -/
theorem diff_pos (v w : ℚ) (hne : roundQ v ≠ roundQ w) : 0 < roundQ |roundQ w - roundQ v| := by
  have : (2 : ℚ) ^ (-1074 : ℤ) ≤ |roundQ w - roundQ v| := by
    obtain ⟨n1, e1⟩ := roundQ_mult v
    obtain ⟨n2, e2⟩ := roundQ_mult w
    have hne' : n2 - n1 ≠ 0 := by
      intro h; apply hne; rw [e1, e2, show n2 = n1 by omega]
    rw [e1, e2, ← sub_mul, abs_mul, abs_of_pos (two_zpow_pos _)]
    have h3 : (1 : ℚ) ≤ |(n2 : ℚ) - n1| := by
      have : (1 : ℤ) ≤ |n2 - n1| := Int.one_le_abs hne'
      exact_mod_cast this
    calc (2 : ℚ) ^ (-1074 : ℤ) = 1 * 2 ^ (-1074 : ℤ) := (one_mul _).symm
      _ ≤ _ := mul_le_mul_of_nonneg_right h3 (two_zpow_pos _).le
  have h4 := roundQ_mono this
  rw [roundQ_tiny] at h4
  exact lt_of_lt_of_le (two_zpow_pos _) h4

/-- `fl` of a non-negative number is not below `fl` of a non-positive one unless both round to
zero. -/
theorem fl_pos_not_le {d t : ℚ} (hd : 0 < roundQ d) (ht : t ≤ 0) : (fl d).le (fl t) = false := by
  have h1 : roundQ t ≤ 0 := by have := roundQ_mono ht; rwa [roundQ_zero] at this
  unfold fl
  have hd' : ¬ roundQ d < 0 := not_lt.mpr hd.le
  by_cases hx : |roundQ d| < 2 ^ (1024 : ℕ) <;> by_cases hy : |roundQ t| < 2 ^ (1024 : ℕ)
  · rw [if_pos hx, if_pos hy]
    simp only [F64.le, decide_eq_false_iff_not, not_le]
    exact lt_of_le_of_lt h1 hd
  · rw [if_pos hx, if_neg hy]
    have : roundQ t < 0 := by
      rcases lt_or_eq_of_le h1 with h | h
      · exact h
      · exfalso; apply hy; rw [h, abs_zero]; positivity
    simp [this, F64.le]
  · rw [if_neg hx, if_pos hy]; simp [hd', F64.le]
  · rw [if_neg hx, if_neg hy]
    have : roundQ t < 0 := by
      rcases lt_or_eq_of_le h1 with h | h
      · exact h
      · exfalso; apply hy; rw [h, abs_zero]; positivity
    simp [this, hd', F64.le]

/-- **C07** With a negative tolerance the comparison is equality of the parsed values. -/
theorem C07_negative_tolerance_is_equality (a b : List UInt8) (x y tol : ℚ)
    (ha : parsed a = some x) (hb : parsed b = some y) (htol : tol < 0) :
    tokenNumericEquals a b tol = true ↔ x = y := by
  obtain ⟨-, v, -, hv⟩ := parsed_some ha
  obtain ⟨-, w, -, hw⟩ := parsed_some hb
  rw [tokenNumericEquals_parsed tol ha hb, numericEquals_fin]
  by_cases hxy : x = y
  · simp [hxy]
  · have hpos : 0 < roundQ |y - x| := by
      rw [hv, hw]; exact diff_pos v w (by rw [← hv, ← hw]; exact hxy)
    rw [if_neg hxy, fl_pos_not_le hpos (by linarith)]
    simp only [Bool.false_eq_true, if_false, hxy, iff_false, Bool.not_eq_true]
    split
    · apply fl_pos_not_le hpos
      exact mul_nonpos_of_nonpos_of_nonneg htol.le smallestNormal_pos.le
    · rename_i h2
      have hx : x ≠ 0 := fun h => h2 (Or.inl h)
      have hm : 0 < max |x| |y| := lt_of_lt_of_le (abs_pos.mpr hx) (le_max_left _ _)
      unfold fl
      by_cases hlt : |roundQ (|y - x|)| < 2 ^ (1024 : ℕ)
      · rw [if_pos hlt]
        simp only [F64.div, if_neg hm.ne']
        have h0 : 0 ≤ roundQ (roundQ |y - x| / max |x| |y|) :=
          roundQ_nonneg (div_nonneg hpos.le hm.le)
        unfold fl
        split
        · simp only [F64.le, decide_eq_false_iff_not, not_le]; linarith
        · simp [not_lt.mpr h0, F64.le]
      · rw [if_neg hlt]
        simp [not_lt.mpr hpos.le, F64.div, not_lt.mpr hm.le, F64.le]

/-- **C07** Soundness in exact arithmetic: if two different parsed values are accepted under a
non-negative tolerance, then up to one rounding unit (2^-53) and the underflow threshold, either
their exact difference is at most `1.5 * tolerance`, or it is at most `tolerance` times the larger
magnitude. -/
theorem C07_sound_up_to_rounding (a b : List UInt8) (x y tol : ℚ) (ha : parsed a = some x)
    (hb : parsed b = some y) (hxy : x ≠ y) (htol : 0 ≤ tol) (hf : IsFloat64 tol)
    (h : tokenNumericEquals a b tol = true) :
    |y - x| * (1 - 1 / 2 ^ (53 : ℕ)) ≤
        3 / 2 * tol * (1 + 1 / 2 ^ (53 : ℕ)) + 2 / 2 ^ (1075 : ℕ) ∨
      2 ^ (1024 : ℕ) ≤ roundQ (3 / 2 * tol) ∨
      (|y - x| * (1 - 1 / 2 ^ (53 : ℕ)) - 1 / 2 ^ (1075 : ℕ)) * (1 - 1 / 2 ^ (53 : ℕ)) ≤
        (tol + 1 / 2 ^ (1075 : ℕ)) * max |x| |y| := by
  have hd0 : 0 ≤ |y - x| := abs_nonneg _
  have herr := roundQ_err _ hd0
  have hlow : |y - x| * (1 - 1 / 2 ^ (53 : ℕ)) - 1 / 2 ^ (1075 : ℕ) ≤ roundQ |y - x| := by
    have := (abs_le.mp herr).1
    have e : |y - x| * (1 - 1 / 2 ^ (53 : ℕ)) = |y - x| - |y - x| / 2 ^ (53 : ℕ) := by ring
    rw [e]; linarith
  rw [C07_characterization a b x y tol ha hb hxy htol hf] at h
  rcases h with h | ⟨hx, hy, h⟩
  · have ht0 : (0 : ℚ) ≤ 3 / 2 * tol := by linarith
    have herr2 := roundQ_err _ ht0
    have hup : roundQ (3 / 2 * tol) ≤ 3 / 2 * tol * (1 + 1 / 2 ^ (53 : ℕ)) + 1 / 2 ^ (1075 : ℕ) := by
      have := (abs_le.mp herr2).2
      have e : 3 / 2 * tol * (1 + 1 / 2 ^ (53 : ℕ)) = 3 / 2 * tol + 3 / 2 * tol / 2 ^ (53 : ℕ) := by
        ring
      rw [e]; linarith
    by_cases hover : 2 ^ (1024 : ℕ) ≤ roundQ (3 / 2 * tol)
    · exact Or.inr (Or.inl hover)
    · left
      have hle : roundQ |y - x| ≤ roundQ (3 / 2 * tol) := by
        have hft : fl (3 / 2 * tol) = .fin (roundQ (3 / 2 * tol)) := by
          unfold fl
          rw [if_pos (by rw [abs_of_nonneg (roundQ_nonneg ht0)]; exact not_le.mp hover)]
        rw [hft] at h
        unfold fl at h
        by_cases hlt : |roundQ (|y - x|)| < 2 ^ (1024 : ℕ)
        · rw [if_pos hlt] at h; simpa [F64.le] using h
        · rw [if_neg hlt] at h
          simp [not_lt.mpr (roundQ_nonneg hd0), F64.le] at h
      have e : (2 : ℚ) / 2 ^ (1075 : ℕ) = 1 / 2 ^ (1075 : ℕ) + 1 / 2 ^ (1075 : ℕ) := by ring
      rw [e]
      linarith
  · right; right
    have hm : 0 < max |x| |y| := lt_of_lt_of_le (abs_pos.mpr hx) (le_max_left _ _)
    unfold relError at h
    have hfin : fl |y - x| = .fin (roundQ |y - x|) := by
      unfold fl
      split
      · rfl
      · rename_i hlt
        exfalso
        unfold fl at h
        rw [if_neg hlt] at h
        simp [not_lt.mpr (roundQ_nonneg hd0), F64.div, not_lt.mpr hm.le, F64.le] at h
    rw [hfin] at h
    simp only [F64.div, if_neg hm.ne'] at h
    have hq0 : 0 ≤ roundQ |y - x| / max |x| |y| := div_nonneg (roundQ_nonneg hd0) hm.le
    have hle : roundQ (roundQ |y - x| / max |x| |y|) ≤ tol := by
      unfold fl at h
      split at h
      · simpa [F64.le] using h
      · simp [not_lt.mpr (roundQ_nonneg hq0), F64.le] at h
    have herr3 := roundQ_err _ hq0
    have h1 := (abs_le.mp herr3).1
    have h2 : roundQ |y - x| / max |x| |y| * (1 - 1 / 2 ^ (53 : ℕ)) ≤ tol + 1 / 2 ^ (1075 : ℕ) := by
      have e : roundQ |y - x| / max |x| |y| * (1 - 1 / 2 ^ (53 : ℕ))
          = roundQ |y - x| / max |x| |y| - roundQ |y - x| / max |x| |y| / 2 ^ (53 : ℕ) := by ring
      rw [e]; linarith
    have h3 : roundQ |y - x| * (1 - 1 / 2 ^ (53 : ℕ)) ≤ (tol + 1 / 2 ^ (1075 : ℕ)) * max |x| |y| := by
      have := mul_le_mul_of_nonneg_right h2 hm.le
      calc roundQ |y - x| * (1 - 1 / 2 ^ (53 : ℕ))
          = roundQ |y - x| / max |x| |y| * (1 - 1 / 2 ^ (53 : ℕ)) * max |x| |y| := by
            field_simp
        _ ≤ _ := this
    have hu : (0 : ℚ) ≤ 1 - 1 / 2 ^ (53 : ℕ) := by norm_num
    exact _root_.le_trans (mul_le_mul_of_nonneg_right hlow hu) h3

/-! Non-vacuity: concrete tokens "1.5", "1.6", "-0.1", "." and tolerances. -/

example : parsed [0x31, 0x2e, 0x35] = some (3 / 2) ∧
    parsed [0x2d, 0x30, 0x2e, 0x31] = some (-3602879701896397 / 36028797018963968) ∧
    parsed [0x2e] = none ∧ IsFloat64 (1 / 8) ∧ IsFloat64 (-1 / 4) := by
  unfold IsFloat64; decide +kernel

-- 1.5 and 1.6 differ by more than 1/16 absolutely and relatively, but by less than 1.5 * 1/8
example : tokenNumericEquals [0x31, 0x2e, 0x35] [0x31, 0x2e, 0x36] (1 / 8) = true ∧
    tokenNumericEquals [0x31, 0x2e, 0x35] [0x31, 0x2e, 0x36] (1 / 16) = false := by
  decide +kernel

-- accepted through the relative branch only: 1000 and 1001 with tolerance 2^-9
example : tokenNumericEquals [0x31, 0x30, 0x30, 0x30] [0x31, 0x30, 0x30, 0x31] (1 / 512) = true ∧
    (fl |1001 - 1000|).le (fl (3 / 2 * (1 / 512))) = false := by
  decide +kernel

end Quark.Float
