import Verif.Grade.Props2
import Mathlib.Tactic.Linarith
import Mathlib.Tactic.Ring
import Mathlib.Tactic.Positivity

/-!
# C126-C128: what a result says about the resources and failures of the processes

`details` is the `Meta` of a case, `individual` its `IndividualMeta`.
-/
namespace Quark.Grade
open Quark.MetaFile (Verdict worse worse_rank rank_inj)
open Quark.Validator (Env Settings sampleEnv)

/-! ## Lemmas: `grade` and its cases -/

theorem fin_details (env : Env) (p : Problem) (x : Case × CaseResult) :
    (fin env p x).details = x.2.details ∧ (fin env p x).individual = x.2.individual := by
  obtain ⟨c, r⟩ := x
  unfold fin validateCase
  simp only
  by_cases hv : r.verdict = .OK
  · rw [if_pos hv]
    rcases comparedFiles p c with ⟨_ | a, _ | b⟩ <;> simp only [and_self]
    by_cases hq : caseScore env p c b a = 1
    · rw [if_pos hq]; exact ⟨rfl, rfl⟩
    · rw [if_neg hq]
      by_cases hq' : caseScore env p c b a = 0
      · rw [if_pos hq']; exact ⟨rfl, rfl⟩
      · rw [if_neg hq']; exact ⟨rfl, rfl⟩
  · rw [if_neg hv]; exact ⟨rfl, rfl⟩

theorem runCases_totals (p : Problem) (s : RunState) (cs : List Case) :
    let rs := (runCases p s cs).2.map fun x => x.2.details
    (runCases p s cs).1.time = (rs.map ProcMeta.time).foldl fadd s.time ∧
    (runCases p s cs).1.wallTime = (rs.map ProcMeta.wallTime).foldl fadd s.wallTime ∧
    (runCases p s cs).1.memory = (rs.map ProcMeta.memory).foldl max s.memory := by
  induction cs generalizing s with
  | nil => exact ⟨rfl, rfl, rfl⟩
  | cons c cs ih =>
    obtain ⟨h1, h2, h3⟩ := ih (runCase p s c).1
    simp only [runCases, List.map_cons, List.foldl_cons]
    exact ⟨h1, h2, h3⟩

theorem runCases_details (p : Problem) (s : RunState) (cs : List Case) :
    ∀ x ∈ (runCases p s cs).2, ∃ wall, x.2.details = (execCase p wall x.1).1 ∧
      x.2.wallTime = (execCase p wall x.1).1.wallTime ∧
      x.2.verdict = (execCase p wall x.1).1.verdict ∧
      x.2.individual = individualOf p wall x.1 := by
  induction cs generalizing s with
  | nil => simp [runCases]
  | cons c cs ih =>
    intro x hx
    simp only [runCases, List.mem_cons] at hx
    rcases hx with rfl | hx
    · exact ⟨s.wallTime, rfl, rfl, rfl, rfl⟩
    · exact ih _ x hx

/-- The executed cases behind a result. -/
theorem grade_cases (env : Env) (p : Problem) (hc : Compiles p) :
    ∃ xs : List (Case × CaseResult),
      xs = (runCases p { events := (compileAll p.compiles).1 } (p.groups.flatMap Group.cases)).2 ∧
      (grade env p).cases = xs.map (fin env p) ∧
      (grade env p).time = ((xs.map fun x => x.2.details).map ProcMeta.time).foldl fadd 0 ∧
      (grade env p).wallTime = ((xs.map fun x => x.2.details).map ProcMeta.wallTime).foldl fadd 0 ∧
      (grade env p).memory = ((xs.map fun x => x.2.details).map ProcMeta.memory).foldl max 0 := by
  have hcc := compileAll_ok _ hc.2
  obtain ⟨ys, hys, hf, hm, hg, -⟩ := grade_ok env p hc.1 hcc
  obtain ⟨f1, f2⟩ := runGroups_flat p { events := (compileAll p.compiles).1 } p.groups
  obtain ⟨t1, t2, t3⟩ := runCases_totals p { events := (compileAll p.compiles).1 }
    (p.groups.flatMap Group.cases)
  refine ⟨_, rfl, ?_, ?_, ?_, ?_⟩
  · unfold RunResult.cases
    rw [hg, ← f2, ← hys, List.flatMap_map, List.map_flatMap]
    rfl
  · rw [← t1, ← f1]; simp only [grade, hc.1, hcc, Bool.not_true, Bool.false_eq_true, if_false]
  · rw [← t2, ← f1]; simp only [grade, hc.1, hcc, Bool.not_true, Bool.false_eq_true, if_false]
  · rw [← t3, ← f1]; simp only [grade, hc.1, hcc, Bool.not_true, Bool.false_eq_true, if_false]

/-! ## Lemmas: rounded sums -/

/-- The unit roundoff of binary64 and the absolute error of its smallest numbers. -/
def ulp : ℚ := 1 / 2 ^ (53 : ℕ)
def tiny : ℚ := 1 / 2 ^ (1075 : ℕ)

theorem fadd_bounds (a b : ℚ) (ha : 0 ≤ a) (hb : 0 ≤ b) :
    (1 - ulp) * (a + b) - tiny ≤ fadd a b ∧ fadd a b ≤ (1 + ulp) * (a + b) + tiny ∧ 0 ≤ fadd a b := by
  have h := Float.roundQ_err (a + b) (by linarith)
  have h2 := abs_le.mp h
  have e : (a + b) / 2 ^ (53 : ℕ) = ulp * (a + b) := by unfold ulp; ring
  rw [e] at h2
  unfold fadd
  refine ⟨?_, ?_, Float.roundQ_nonneg (by linarith)⟩
  · have := h2.1; unfold tiny; linarith
  · have := h2.2; unfold tiny; linarith

theorem ulp_range : 0 < ulp ∧ ulp < 1 := by unfold ulp; norm_num
theorem tiny_pos : 0 < tiny := one_div_pos.mpr (pow_pos (by norm_num) _)

theorem sum_upper (l : List ℚ) (w : ℚ) (hw : 0 ≤ w) (hl : ∀ x ∈ l, 0 ≤ x) :
    l.foldl fadd w ≤ (1 + ulp) ^ l.length * (w + l.sum + l.length * tiny) := by
  obtain ⟨u0, -⟩ := ulp_range
  have t0 := tiny_pos
  induction l generalizing w with
  | nil => simp
  | cons x l ih =>
    have hx := hl x (by simp)
    have hl' : ∀ y ∈ l, 0 ≤ y := fun y hy => hl y (by simp [hy])
    obtain ⟨-, b, c⟩ := fadd_bounds w x hw hx
    refine (ih (fadd w x) c hl').trans ?_
    have hs : 0 ≤ l.sum := List.sum_nonneg hl'
    have hp : 0 ≤ (1 + ulp) ^ l.length := by positivity
    have hn : (0 : ℚ) ≤ l.length * tiny := mul_nonneg (Nat.cast_nonneg _) t0.le
    simp only [List.length_cons, List.sum_cons, Nat.cast_add, Nat.cast_one, pow_succ]
    rw [mul_assoc]
    apply mul_le_mul_of_nonneg_left _ hp
    have h1 : 0 ≤ ulp * (l.sum + l.length * tiny + tiny) := mul_nonneg u0.le (by linarith)
    linarith

theorem sum_lower (l : List ℚ) (w : ℚ) (hw : 0 ≤ w) (hl : ∀ x ∈ l, 0 ≤ x) :
    (1 - ulp) ^ l.length * (w + l.sum) - l.length * tiny ≤ l.foldl fadd w := by
  obtain ⟨u0, u1⟩ := ulp_range
  have t0 := tiny_pos
  induction l generalizing w with
  | nil => simp
  | cons x l ih =>
    have hx := hl x (by simp)
    have hl' : ∀ y ∈ l, 0 ≤ y := fun y hy => hl y (by simp [hy])
    obtain ⟨a, -, c⟩ := fadd_bounds w x hw hx
    refine le_trans ?_ (ih (fadd w x) c hl')
    have hs : 0 ≤ l.sum := List.sum_nonneg hl'
    have hp : 0 ≤ (1 - ulp) ^ l.length := pow_nonneg (by linarith) _
    have hp1 : (1 - ulp) ^ l.length ≤ 1 := pow_le_one₀ (by linarith) (by linarith)
    simp only [List.length_cons, List.sum_cons, Nat.cast_add, Nat.cast_one, pow_succ]
    have h1 : (1 - ulp) * (w + (x + l.sum)) - tiny ≤ fadd w x + l.sum := by
      have : 0 ≤ ulp * l.sum := by positivity
      linarith
    have h2 := mul_le_mul_of_nonneg_left h1 hp
    have h3 : (1 - ulp) ^ l.length * tiny ≤ tiny := by
      calc _ ≤ 1 * tiny := mul_le_mul_of_nonneg_right hp1 t0.le
        _ = tiny := one_mul _
    linarith

theorem fadd_le_left (a b : ℚ) (ha : Float.roundQ a = a) (hb : 0 ≤ b) : a ≤ fadd a b := by
  have := Float.roundQ_mono (show a ≤ a + b by linarith)
  rwa [ha] at this

theorem fadd_le_right (a b : ℚ) (hb : Float.roundQ b = b) (ha : 0 ≤ a) : b ≤ fadd a b := by
  have := Float.roundQ_mono (show b ≤ a + b by linarith)
  rwa [hb] at this

theorem foldl_ge (l : List ℚ) (w : ℚ) (hw : 0 ≤ w) (hr : Float.roundQ w = w)
    (hl : ∀ x ∈ l, 0 ≤ x ∧ Float.roundQ x = x) :
    w ≤ l.foldl fadd w ∧ ∀ x ∈ l, x ≤ l.foldl fadd w := by
  induction l generalizing w with
  | nil => simp
  | cons y l ih =>
    obtain ⟨y0, yr⟩ := hl y (by simp)
    have h1 := fadd_le_left w y hr y0
    have h2 := fadd_le_right w y yr hw
    obtain ⟨a, b⟩ := ih (fadd w y) (hw.trans h1) (roundQ_idem _) (fun x hx => hl x (by simp [hx]))
    rw [List.foldl_cons]
    refine ⟨h1.trans a, ?_⟩
    intro x hx
    rcases List.mem_cons.mp hx with rfl | hx
    · exact h2.trans a
    · exact b x hx

theorem foldl_max {α} [LinearOrder α] (l : List α) (w : α) :
    w ≤ l.foldl max w ∧ (∀ x ∈ l, x ≤ l.foldl max w) ∧ (l.foldl max w = w ∨ l.foldl max w ∈ l) := by
  induction l generalizing w with
  | nil => simp
  | cons y l ih =>
    obtain ⟨a, b, c⟩ := ih (max w y)
    rw [List.foldl_cons]
    refine ⟨(le_max_left w y).trans a, ?_, ?_⟩
    · intro x hx
      rcases List.mem_cons.mp hx with rfl | hx
      · exact (le_max_right w x).trans a
      · exact b x hx
    · rcases c with c | c
      · rw [c]
        rcases max_choice w y with h | h
        · exact .inl h
        · exact .inr (by rw [h]; simp)
      · exact .inr (by simp [c])

/-! ## C126: the totals of a run -/

/-- **C126** The memory of a run is the largest of its cases' (0 if there are none). -/
theorem C126_memory (env : Env) (p : Problem) (hc : Compiles p) :
    let r := grade env p
    (∀ c ∈ r.cases, c.details.memory ≤ r.memory) ∧
    0 ≤ r.memory ∧ (r.memory = 0 ∨ ∃ c ∈ r.cases, c.details.memory = r.memory) := by
  obtain ⟨xs, -, h1, -, -, h4⟩ := grade_cases env p hc
  obtain ⟨a, b, c⟩ := foldl_max ((xs.map fun x => x.2.details).map ProcMeta.memory) 0
  simp only
  rw [h1, h4]
  refine ⟨?_, a, ?_⟩
  · intro k hk
    obtain ⟨x, hx, rfl⟩ := List.mem_map.mp hk
    rw [(fin_details env p x).1]
    exact b _ (List.mem_map.mpr ⟨_, List.mem_map.mpr ⟨x, hx, rfl⟩, rfl⟩)
  · rcases c with c | c
    · exact .inl c
    · obtain ⟨m, hm, e⟩ := List.mem_map.mp c
      obtain ⟨x, hx, rfl⟩ := List.mem_map.mp hm
      exact .inr ⟨_, List.mem_map.mpr ⟨x, hx, rfl⟩, by rw [(fin_details env p x).1]; exact e⟩

/-- **C126** The time and wall time of a run are the sums of those of its cases, up to one binary64
rounding (relative error 2⁻⁵³, or 2⁻¹⁰⁷⁵ near zero) for each case; with at most one case they are
those of the case. -/
theorem C126_time (env : Env) (p : Problem) (hc : Compiles p)
    (hn : ∀ c ∈ (grade env p).cases, 0 ≤ c.details.time ∧ 0 ≤ c.details.wallTime) :
    let r := grade env p
    let n := r.cases.length
    let T := (r.cases.map fun c => c.details.time).sum
    let W := (r.cases.map fun c => c.details.wallTime).sum
    ((1 - 1 / 2 ^ 53) ^ n * T - n / 2 ^ 1075 ≤ r.time ∧
      r.time ≤ (1 + 1 / 2 ^ 53) ^ n * (T + n / 2 ^ 1075)) ∧
    ((1 - 1 / 2 ^ 53) ^ n * W - n / 2 ^ 1075 ≤ r.wallTime ∧
      r.wallTime ≤ (1 + 1 / 2 ^ 53) ^ n * (W + n / 2 ^ 1075)) := by
  obtain ⟨xs, -, h1, h2, h3, -⟩ := grade_cases env p hc
  have e1 : (grade env p).cases.map (fun c => c.details.time)
      = (xs.map fun x => x.2.details).map ProcMeta.time := by
    rw [h1, List.map_map, List.map_map]
    exact List.map_congr_left fun x _ => congrArg _ (fin_details env p x).1
  have e2 : (grade env p).cases.map (fun c => c.details.wallTime)
      = (xs.map fun x => x.2.details).map ProcMeta.wallTime := by
    rw [h1, List.map_map, List.map_map]
    exact List.map_congr_left fun x _ => congrArg _ (fin_details env p x).1
  have n1 : ∀ x ∈ (xs.map fun x => x.2.details).map ProcMeta.time, 0 ≤ x := by
    rw [← e1]; intro x hx; obtain ⟨c, hc', rfl⟩ := List.mem_map.mp hx; exact (hn c hc').1
  have n2 : ∀ x ∈ (xs.map fun x => x.2.details).map ProcMeta.wallTime, 0 ≤ x := by
    rw [← e2]; intro x hx; obtain ⟨c, hc', rfl⟩ := List.mem_map.mp hx; exact (hn c hc').2
  have l1 : ((xs.map fun x => x.2.details).map ProcMeta.time).length = (grade env p).cases.length := by
    rw [h1]; simp
  have l2 : ((xs.map fun x => x.2.details).map ProcMeta.wallTime).length
      = (grade env p).cases.length := by rw [h1]; simp
  have a1 := sum_lower _ 0 (le_refl _) n1
  have b1 := sum_upper _ 0 (le_refl _) n1
  have a2 := sum_lower _ 0 (le_refl _) n2
  have b2 := sum_upper _ 0 (le_refl _) n2
  rw [l1, zero_add, ← h2, ← e1] at a1 b1
  rw [l2, zero_add, ← h3, ← e2] at a2 b2
  have en : ((grade env p).cases.length : ℚ) * tiny = (grade env p).cases.length / 2 ^ 1075 := by
    unfold tiny; ring
  rw [en] at a1 b1 a2 b2
  exact ⟨⟨a1, b1⟩, a2, b2⟩

/-- **C126** No case took longer than the run. -/
theorem C126_case_le_run (env : Env) (p : Problem) (hc : Compiles p)
    (hn : ∀ c ∈ (grade env p).cases, (0 ≤ c.details.time ∧ Float.roundQ c.details.time = c.details.time) ∧
      0 ≤ c.details.wallTime ∧ Float.roundQ c.details.wallTime = c.details.wallTime) :
    ∀ c ∈ (grade env p).cases,
      c.details.time ≤ (grade env p).time ∧ c.details.wallTime ≤ (grade env p).wallTime := by
  obtain ⟨xs, -, h1, h2, h3, -⟩ := grade_cases env p hc
  have e1 : (grade env p).cases.map (fun c => c.details.time)
      = (xs.map fun x => x.2.details).map ProcMeta.time := by
    rw [h1, List.map_map, List.map_map]
    exact List.map_congr_left fun x _ => congrArg _ (fin_details env p x).1
  have e2 : (grade env p).cases.map (fun c => c.details.wallTime)
      = (xs.map fun x => x.2.details).map ProcMeta.wallTime := by
    rw [h1, List.map_map, List.map_map]
    exact List.map_congr_left fun x _ => congrArg _ (fin_details env p x).1
  rw [h2, h3, ← e1, ← e2]
  intro c hc'
  constructor
  · refine (foldl_ge _ 0 (le_refl _) Float.roundQ_zero ?_).2 _ (List.mem_map.mpr ⟨c, hc', rfl⟩)
    intro x hx; obtain ⟨k, hk, rfl⟩ := List.mem_map.mp hx; exact (hn k hk).1
  · refine (foldl_ge _ 0 (le_refl _) Float.roundQ_zero ?_).2 _ (List.mem_map.mpr ⟨c, hc', rfl⟩)
    intro x hx; obtain ⟨k, hk, rfl⟩ := List.mem_map.mp hx; exact (hn k hk).2

/-- **C126** A submission that does not compile, or is in an unknown language, has used nothing. -/
theorem C126_nothing_used (env : Env) (p : Problem) (hc : ¬ Compiles p) :
    (grade env p).time = 0 ∧ (grade env p).wallTime = 0 ∧ (grade env p).memory = 0 := by
  have hcf : p.setup = .ok → (compileAll p.compiles).2 = false := by
    intro hs
    by_contra h
    apply hc
    refine ⟨hs, ?_⟩
    clear hc hs
    generalize p.compiles = bs at h
    induction bs with
    | nil => simp
    | cons b bs ih =>
      rw [compileAll] at h
      by_cases hb : b.err ∨ b.verdict ≠ .OK
      · rw [if_pos hb] at h; simp at h
      · rw [if_neg hb] at h
        simp only [not_or, not_not, Bool.not_eq_true] at hb
        intro x hx
        rcases List.mem_cons.mp hx with rfl | hx
        · exact hb
        · exact ih h x hx
  unfold grade
  cases hs : p.setup with
  | ioError => exact ⟨rfl, rfl, rfl⟩
  | unsupportedLanguage => exact ⟨rfl, rfl, rfl⟩
  | ok => simp [hcf hs]

/-! ## C127: the resources of a case with several processes -/

theorem collect_rest (procs : List Proc) (s : Collect) :
    (procs.foldl collectStep s).memory
      = ((contestants procs).map fun r => r.result.memory).foldl (fun a m => a + max a m) s.memory := by
  induction procs generalizing s with
  | nil => rfl
  | cons r procs ih =>
    rw [List.foldl_cons, ih]
    unfold collectStep contestants
    cases hk : r.kind with
    | problemsetter => simp [hk]
    | contestant =>
      simp only [List.filter_cons, hk, decide_true, if_true, List.map_cons, List.foldl_cons]
      by_cases h : r.result.verdict ≠ .OK ∧ s.chosenEmpty
      · rw [if_pos h]
      · rw [if_neg h]

theorem collect_memory (procs : List Proc) :
    (collect procs).memory
      = ((contestants procs).map fun r => r.result.memory).foldl (fun a m => a + max a m) 0 := by
  have h := collect_rest procs {}
  simp only [collect]
  rw [show (0 : Int) = (({} : Collect)).memory from rfl, ← h]
  split
  · split <;> rfl
  · rfl

theorem double_lower (l : List Int) (w : Int) : w + l.sum ≤ l.foldl (fun a m => a + max a m) w := by
  induction l generalizing w with
  | nil => simp
  | cons x l ih =>
    have := ih (w + max w x)
    simp only [List.foldl_cons, List.sum_cons]
    omega

theorem double_upper (l : List Int) (M w : Int) (hw : w ≤ M) (hM : 0 ≤ M) (hl : ∀ x ∈ l, x ≤ M) :
    l.foldl (fun a m => a + max a m) w ≤ 2 ^ l.length * M := by
  induction l generalizing w M with
  | nil => simpa using hw
  | cons x l ih =>
    have hx := hl x (by simp)
    simp only [List.foldl_cons, List.length_cons]
    have := ih (2 * M) (w + max w x) (by omega) (by omega)
      (fun y hy => by have := hl y (by simp [hy]); omega)
    rw [pow_succ]
    linarith

/-- **C127 (partial)** The memory reported for a case is at least the sum of its contestant
processes' memories, at most 2ⁿ⁻¹ times the largest of them (with n processes), and exactly that of
the process if there is only one.  False in general: that it is the sum (`C127_memory_doubles`). -/
theorem C127_memory_partial (procs : List Proc) (M : Int)
    (hm : ∀ r ∈ contestants procs, 0 ≤ r.result.memory ∧ r.result.memory ≤ M) :
    ((contestants procs).map fun r => r.result.memory).sum ≤ (collect procs).memory ∧
    (∀ n, (contestants procs).length = n + 1 → (collect procs).memory ≤ 2 ^ n * M) ∧
    (∀ r, contestants procs = [r] → (collect procs).memory = r.result.memory) := by
  rw [collect_memory]
  refine ⟨?_, ?_, ?_⟩
  · have := double_lower ((contestants procs).map fun r => r.result.memory) 0
    linarith
  · intro n hn
    cases hl : contestants procs with
    | nil => rw [hl] at hn; simp at hn
    | cons r l =>
      rw [hl] at hn hm
      obtain ⟨h0, h1⟩ := hm r (by simp)
      simp only [List.map_cons, List.foldl_cons]
      have e : (0 : Int) + max 0 r.result.memory = r.result.memory := by omega
      rw [e]
      have := double_upper (l.map fun r => r.result.memory) M r.result.memory h1 (h0.trans h1)
        (fun x hx => by
          obtain ⟨y, hy, rfl⟩ := List.mem_map.mp hx
          exact (hm y (by simp [hy])).2)
      rw [List.length_map] at this
      simp only [List.length_cons, Nat.add_right_cancel_iff] at hn
      rwa [hn] at this
  · intro r hr
    rw [hr] at hm ⊢
    have := (hm r (by simp)).1
    simp only [List.map_cons, List.map_nil, List.foldl_cons, List.foldl_nil]
    omega

/-- It applies to three processes of 5, 7 and 6 bytes: 18 in all, at most 28, and 24 are reported. -/
example : (∀ r ∈ contestants [child "a" 0 5, child "b" 0 7, child "c" 0 6], 0 ≤ r.result.memory ∧ r.result.memory ≤ 7) ∧
    (contestants [child "a" 0 5, child "b" 0 7, child "c" 0 6]).length = 2 + 1 ∧
    (collect [child "a" 0 5, child "b" 0 7, child "c" 0 6]).memory = 24 := by decide +kernel

/-- The upper bound is met: n + 1 processes of `m` bytes each are reported as using 2ⁿ m bytes, not
(n + 1) m. -/
theorem C127_memory_doubles (n : Nat) (m : Int) (hm : 0 ≤ m) :
    (collect (List.replicate (n + 1) (child "a" 0 m))).memory = 2 ^ n * m := by
  rw [collect_memory]
  have h1 : contestants (List.replicate (n + 1) (child "a" 0 m))
      = List.replicate (n + 1) (child "a" 0 m) := by
    unfold contestants
    exact List.filter_eq_self.mpr fun r hr => by
      rw [List.eq_of_mem_replicate hr]; rfl
  rw [h1, List.map_replicate, List.replicate_succ, List.foldl_cons]
  have e : (0 : Int) + max 0 (child "a" 0 m).result.memory = m := by
    show (0 : Int) + max 0 m = m
    omega
  rw [e]
  show (List.replicate n m).foldl (fun a x => a + max a x) m = 2 ^ n * m
  have key : ∀ (n : Nat) (w : Int), m ≤ w →
      (List.replicate n m).foldl (fun a x => a + max a x) w = 2 ^ n * w := by
    intro n
    induction n with
    | zero => intro w _; simp
    | succ n ih =>
      intro w hw
      have e : w + max w m = 2 * w := by omega
      rw [List.replicate_succ, List.foldl_cons, e, ih (2 * w) (by omega), pow_succ]
      ring
  exact key n m (le_refl _)

/-- **C127** The time of a case is the sum of its contestant processes' times up to one rounding per
process; its wall time is the largest of theirs (0 if there are none). -/
theorem C127_time (procs : List Proc) (h : ∀ r ∈ contestants procs, 0 ≤ r.result.time) :
    let n := (contestants procs).length
    let T := ((contestants procs).map fun r => r.result.time).sum
    ((1 - 1 / 2 ^ 53) ^ n * T - n / 2 ^ 1075 ≤ (collect procs).time ∧
      (collect procs).time ≤ (1 + 1 / 2 ^ 53) ^ n * (T + n / 2 ^ 1075)) ∧
    (∀ r ∈ contestants procs, r.result.wallTime ≤ (collect procs).wallTime) ∧
    ((collect procs).wallTime = 0 ∨ ∃ r ∈ contestants procs, r.result.wallTime = (collect procs).wallTime) := by
  obtain ⟨-, a2, a3⟩ := collect_eq procs
  have hn : ∀ x ∈ (contestants procs).map fun r => r.result.time, 0 ≤ x := by
    intro x hx; obtain ⟨r, hr, rfl⟩ := List.mem_map.mp hx; exact h r hr
  have a := sum_lower _ 0 (le_refl _) hn
  have b := sum_upper _ 0 (le_refl _) hn
  rw [List.length_map, zero_add, ← a3] at a b
  have en : ((contestants procs).length : ℚ) * tiny = (contestants procs).length / 2 ^ 1075 := by
    unfold tiny; ring
  rw [en] at a b
  obtain ⟨-, c, d⟩ := foldl_max ((contestants procs).map fun r => r.result.wallTime) 0
  rw [← a2] at c d
  refine ⟨⟨a, b⟩, fun r hr => c _ (List.mem_map.mpr ⟨r, hr, rfl⟩), ?_⟩
  rcases d with d | d
  · exact .inl d
  · obtain ⟨r, hr, e⟩ := List.mem_map.mp d
    exact .inr ⟨r, hr, e⟩

theorem store_mem (k : String) (v : ProcMeta) (l : List (String × ProcMeta)) (e : String × ProcMeta) :
    e ∈ store k v l ↔ e = (k, v) ∨ (e ∈ l ∧ e.1 ≠ k) := by
  simp [store, List.mem_filter]

theorem stored (procs : List Proc) (hd : (procs.map Proc.name).Nodup) (l : List (String × ProcMeta))
    (hl : ∀ e ∈ l, ∀ r ∈ procs, e.1 ≠ r.name) (e : String × ProcMeta) :
    e ∈ procs.foldl (fun l r => store r.name r.result l) l ↔
      e ∈ l ∨ ∃ r ∈ procs, e = (r.name, r.result) := by
  induction procs generalizing l with
  | nil => simp
  | cons r procs ih =>
    simp only [List.map_cons, List.nodup_cons] at hd
    rw [List.foldl_cons, ih hd.2]
    · rw [store_mem]
      constructor
      · rintro ((h | h) | ⟨q, hq, h⟩)
        · exact .inr ⟨r, by simp, h⟩
        · exact .inl h.1
        · exact .inr ⟨q, by simp [hq], h⟩
      · rintro (h | ⟨q, hq, h⟩)
        · exact .inl (.inr ⟨h, hl e h r (by simp)⟩)
        · rcases List.mem_cons.mp hq with rfl | hq
          · exact .inl (.inl h)
          · exact .inr ⟨q, hq, h⟩
    · intro f hf q hq
      rw [store_mem] at hf
      rcases hf with rfl | hf
      · intro he
        exact hd.1 (List.mem_map.mpr ⟨q, hq, he.symm⟩)
      · exact hl f hf.1 q (by simp [hq])

theorem store_keys (procs : List Proc) (l : List (String × ProcMeta)) (hl : (l.map Prod.fst).Nodup) :
    ((procs.foldl (fun l r => store r.name r.result l) l).map Prod.fst).Nodup := by
  induction procs generalizing l with
  | nil => exact hl
  | cons r procs ih =>
    rw [List.foldl_cons]
    apply ih
    unfold store
    simp only [List.map_cons, List.nodup_cons]
    refine ⟨?_, ?_⟩
    · intro h
      obtain ⟨e, he, h⟩ := List.mem_map.mp h
      have := (List.mem_filter.mp he).2
      simp only [ne_eq, decide_eq_true_eq] at this
      exact this h
    · exact hl.sublist (List.filter_sublist.map _)

/-- A case of the result and the wall time spent before it. -/
theorem case_at (env : Env) (p : Problem) (hc : Compiles p) (k : Nat) (c : Case)
    (r : CaseResult) (hcs : (p.groups.flatMap Group.cases)[k]? = some c)
    (hr : (grade env p).cases[k]? = some r) :
    r.details = (execCase p (wallBefore (grade env p).cases k) c).1 ∧
    r.individual = individualOf p (wallBefore (grade env p).cases k) c := by
  obtain ⟨xs, hxs, h1, -⟩ := grade_cases env p hc
  have hidx : ∀ (s : RunState) (cs : List Case) (k : Nat) (c : Case) (x : Case × CaseResult),
      cs[k]? = some c → (runCases p s cs).2[k]? = some x →
      x.2.details = (execCase p
        (((((runCases p s cs).2.map Prod.snd).take k).map CaseResult.wallTime).foldl fadd s.wallTime) c).1 ∧
      x.2.individual = individualOf p
        (((((runCases p s cs).2.map Prod.snd).take k).map CaseResult.wallTime).foldl fadd s.wallTime) c := by
    intro s cs
    induction cs generalizing s with
    | nil => intro k c x h; simp at h
    | cons a cs ih =>
      intro k c x h h'
      match k with
      | 0 =>
        simp only [List.getElem?_cons_zero, Option.some.injEq] at h
        simp only [runCases, List.getElem?_cons_zero, Option.some.injEq] at h'
        subst h h'
        exact ⟨rfl, rfl⟩
      | k + 1 =>
        simp only [List.getElem?_cons_succ] at h
        simp only [runCases, List.getElem?_cons_succ] at h'
        obtain ⟨i1, i2⟩ := ih _ k c x h h'
        rw [i1, i2]
        simp only [runCases, List.map_cons, List.take_succ_cons, List.foldl_cons]
        exact ⟨rfl, rfl⟩
  have hxk : ∃ x, xs[k]? = some x ∧ fin env p x = r := by
    rw [h1, List.getElem?_map] at hr
    cases hx : xs[k]? with
    | none => rw [hx] at hr; simp at hr
    | some x => rw [hx] at hr; exact ⟨x, rfl, by simpa using hr⟩
  obtain ⟨x, hx, rfl⟩ := hxk
  have hw : wallBefore (grade env p).cases k
      = (((xs.map Prod.snd).take k).map CaseResult.wallTime).foldl fadd 0 := by
    unfold wallBefore
    rw [h1, ← List.map_take, ← List.map_take, List.map_map, List.map_map]
    congr 1
    apply List.map_congr_left
    intro y hy
    have hf : Fresh p y := by
      have := List.mem_of_mem_take hy
      rw [hxs] at this
      exact runCases_fresh p _ _ y this
    exact (fin_spec env p y hf).2.2.1
  rw [(fin_details env p x).1, (fin_details env p x).2]
  rw [hxs] at hx
  have hi := hidx _ _ k c x hcs hx
  rw [← hxs] at hi
  rw [hi.1, hi.2, hw]
  exact ⟨rfl, rfl⟩

/-- **C127** What is reported for a case: nothing but TLE if the wall time was spent before it;
otherwise, unless the problem is output-only, what the rules above say of its processes. -/
theorem C127_case (env : Env) (p : Problem) (hc : Compiles p) (hcat : p.cat = false) (k : Nat) (c : Case)
    (r : CaseResult) (hcs : (p.groups.flatMap Group.cases)[k]? = some c)
    (hr : (grade env p).cases[k]? = some r) :
    (p.wallLimit < wallBefore (grade env p).cases k →
      r.details = { verdict := .TLE, exitStatus := 0, time := 0, systemTime := 0, wallTime := 0,
                    memory := 0, signal := none, syscall := none }) ∧
    (wallBefore (grade env p).cases k ≤ p.wallLimit → r.details = collect c.procs) := by
  obtain ⟨h, -⟩ := case_at env p hc k c r hcs hr
  rw [h]
  constructor
  · intro hw; rw [execCase, if_pos hw]
  · intro hw; rw [execCase, if_neg (not_lt.mpr hw), if_neg (by rw [hcat]; decide)]

theorem individualOf_keys (p : Problem) (w : ℚ) (c : Case) :
    ((individualOf p w c).map Prod.fst).Nodup := by
  have h : ((individualOfProcs p w c).map Prod.fst).Nodup := by
    unfold individualOfProcs
    by_cases h1 : p.wallLimit < w ∨ p.cat = true
    · rw [if_pos h1]; simp
    · rw [if_neg h1]
      by_cases h2 : c.procs.length ≠ 1
      · rw [if_pos h2]; exact store_keys _ _ (by simp)
      · rw [if_neg h2]; simp
  unfold individualOf
  by_cases hv : (execCase p w c).1.verdict = .OK ∧ p.validator.name = "custom"
  · rw [if_pos hv]
    exact store_keys [{ name := "validator", kind := .contestant, result := c.validatorMeta }] _ h
  · rw [if_neg hv]; exact h

/-- **C127** The processes listed with a case, each name once: those of the case if there are several and it was executed, and
the custom validator if it was asked. -/
theorem C127_individual (env : Env) (p : Problem) (hc : Compiles p) (k : Nat) (c : Case)
    (r : CaseResult) (hcs : (p.groups.flatMap Group.cases)[k]? = some c)
    (hr : (grade env p).cases[k]? = some r) (hd : (c.procs.map Proc.name).Nodup) :
    (r.individual.map Prod.fst).Nodup ∧
    ∀ name m, (name, m) ∈ r.individual ↔
      if name = "validator" ∧ p.validator.name = "custom" ∧ r.details.verdict = .OK then m = c.validatorMeta
      else p.cat = false ∧ wallBefore (grade env p).cases k ≤ p.wallLimit ∧ c.procs.length ≠ 1 ∧
        ∃ q ∈ c.procs, q.name = name ∧ q.result = m := by
  obtain ⟨hdet, hi⟩ := case_at env p hc k c r hcs hr
  rw [hi, hdet]
  generalize wallBefore (grade env p).cases k = w
  refine ⟨individualOf_keys p w c, ?_⟩
  intro name m
  have procs : (name, m) ∈ individualOfProcs p w c ↔ p.cat = false ∧ w ≤ p.wallLimit ∧ c.procs.length ≠ 1 ∧
      ∃ q ∈ c.procs, q.name = name ∧ q.result = m := by
    unfold individualOfProcs
    by_cases h1 : p.wallLimit < w ∨ p.cat = true
    · rw [if_pos h1]
      constructor
      · intro h; simp at h
      · rintro ⟨h2, h3, -⟩
        rcases h1 with h1 | h1
        · exact absurd h1 (not_lt.mpr h3)
        · rw [h1] at h2; cases h2
    · rw [if_neg h1]
      rw [not_or, not_lt, Bool.not_eq_true] at h1
      by_cases h2 : c.procs.length ≠ 1
      · rw [if_pos h2, stored c.procs hd [] (by simp)]
        simp only [List.not_mem_nil, false_or, Prod.mk.injEq]
        constructor
        · rintro ⟨q, hq, a, b⟩; exact ⟨h1.2, h1.1, h2, q, hq, a.symm, b.symm⟩
        · rintro ⟨-, -, -, q, hq, a, b⟩; exact ⟨q, hq, a.symm, b.symm⟩
      · rw [if_neg h2]
        constructor
        · intro h; simp at h
        · rintro ⟨-, -, h3, -⟩; exact absurd h3 h2
  unfold individualOf
  by_cases hv : (execCase p w c).1.verdict = .OK ∧ p.validator.name = "custom"
  · rw [if_pos hv, store_mem]
    by_cases hn : name = "validator"
    · rw [if_pos ⟨hn, hv.2, hv.1⟩]
      simp only [Prod.mk.injEq]
      constructor
      · rintro (h | h)
        · exact h.2
        · exact absurd hn h.2
      · intro h; exact .inl ⟨hn, h⟩
    · rw [if_neg (fun h => hn h.1), ← procs]
      simp only [Prod.mk.injEq]
      constructor
      · rintro (h | h)
        · exact absurd h.1 hn
        · exact h.1
      · intro h; exact .inr ⟨h, hn⟩
  · rw [if_neg hv, if_neg (fun h => hv ⟨h.2.2, h.2.1⟩), procs]

/-! ## C128: how the process failed -/

/-- The details that are not totals. -/
def ProcMeta.failure (m : ProcMeta) : Int × ℚ × Option String × Option String :=
  (m.exitStatus, m.systemTime, m.signal, m.syscall)

theorem chosen_fold (procs : List Proc) (s : Collect) :
    (procs.foldl collectStep s).chosen.failure =
      if s.chosenEmpty then
        match (contestants procs).find? (fun r => r.result.verdict ≠ .OK) with
        | some r => r.result.failure
        | none => s.chosen.failure
      else s.chosen.failure := by
  induction procs generalizing s with
  | nil => simp [contestants]
  | cons r procs ih =>
    rw [List.foldl_cons, ih]
    unfold collectStep contestants
    cases hk : r.kind with
    | problemsetter => simp [hk]
    | contestant =>
      simp only [List.filter_cons, hk, decide_true, if_true, List.find?_cons]
      by_cases hv : r.result.verdict = .OK
      · simp [hv]
      · cases hs : s.chosenEmpty <;> simp [hv, hs]

theorem collect_failure (procs : List Proc) :
    (collect procs).failure =
      match (contestants procs).find? (fun r => r.result.verdict ≠ .OK) with
      | some r => r.result.failure
      | none => (0, 0, none, none) := by
  have h := chosen_fold procs {}
  simp only [if_true] at h
  have e : (collect procs).failure = (procs.foldl collectStep {}).chosen.failure := by
    simp only [collect]
    split
    · split <;> rfl
    · rfl
  rw [e, h]
  rfl

/-- **C128 (partial)** Exit status, signal, system call and system time of a case: those of a
contestant process that failed, or none (0) if no contestant process failed; of *the* process that
failed if only one did.  False in general: that they do not depend on which process finished first,
and that they belong to the process whose verdict is reported (`C128_not_the_verdicts`). -/
theorem C128_failure_partial (procs : List Proc) :
    ((∀ r ∈ contestants procs, r.result.verdict = .OK) → (collect procs).failure = (0, 0, none, none)) ∧
    ((∃ r ∈ contestants procs, r.result.verdict ≠ .OK) →
      ∃ r ∈ contestants procs, r.result.verdict ≠ .OK ∧ (collect procs).failure = r.result.failure) ∧
    (∀ r ∈ contestants procs, r.result.verdict ≠ .OK →
      (∀ q ∈ contestants procs, q.result.verdict ≠ .OK → q = r) →
      (collect procs).failure = r.result.failure ∧ (collect procs).verdict = r.result.verdict) := by
  have h := collect_failure procs
  refine ⟨?_, ?_, ?_⟩
  · intro hall
    rw [h, List.find?_eq_none.mpr]
    intro r hr
    simp [hall r hr]
  · rintro ⟨r, hr, hv⟩
    cases hf : (contestants procs).find? (fun r => r.result.verdict ≠ .OK) with
    | none => exact absurd hv (by simpa using List.find?_eq_none.mp hf r hr)
    | some q =>
      rw [hf] at h
      exact ⟨q, List.mem_of_find?_eq_some hf, by simpa using List.find?_some hf, h⟩
  · intro r hr hv hu
    constructor
    · cases hf : (contestants procs).find? (fun r => r.result.verdict ≠ .OK) with
      | none => exact absurd hv (by simpa using List.find?_eq_none.mp hf r hr)
      | some q =>
        rw [hf] at h
        rw [h, hu q (List.mem_of_find?_eq_some hf) (by simpa using List.find?_some hf)]
    · obtain ⟨⟨q, hq, e⟩, hle⟩ := (C17_verdict_rule procs).1 ⟨r, hr, hv⟩
      by_cases hqv : q.result.verdict = .OK
      · have h1 := hle r hr
        rw [← e, hqv] at h1
        exfalso
        clear hu
        revert h1 hv
        cases r.result.verdict <;> decide
      · rw [← e, hu q hq hqv]

/-- One process died of a signal, another exceeded the memory limit. -/
def crashed : Proc :=
  { name := "a", kind := .contestant, result := { verdict := .RTE, exitStatus := 0, signal := some "SIGSEGV" } }
def hungry : Proc :=
  { name := "b", kind := .contestant, result := { verdict := .MLE, exitStatus := 1 } }

/-- C128 is false in general: the signal depends on which process finished first, and the case may
be reported with the verdict of one process and the signal of another. -/
theorem C128_not_the_verdicts :
    (collect [hungry, crashed]).signal = none ∧ (collect [crashed, hungry]).signal = some "SIGSEGV" ∧
    (collect [hungry, crashed]).verdict = (collect [crashed, hungry]).verdict ∧
    ∃ r ∈ [crashed, hungry], ∃ l, l.Perm [crashed, hungry] ∧
      r.result.verdict = (collect l).verdict ∧ r.result.signal ≠ (collect l).signal := by
  refine ⟨by decide +kernel, by decide +kernel, by decide +kernel, ?_⟩
  by_cases h : (collect [crashed, hungry]).verdict = .MLE
  · exact ⟨hungry, by simp, [crashed, hungry], List.Perm.refl _, h.symm, by decide +kernel⟩
  · refine ⟨crashed, by simp, [hungry, crashed], List.Perm.swap _ _ _, ?_, by decide +kernel⟩
    revert h; decide +kernel

/-! ## Concrete cases -/

-- three cases of 1/2 s each, the hypotheses of C126 hold, and the totals
example : Compiles sample ∧
    (∀ c ∈ (grade sampleEnv sample).cases, (0 ≤ c.details.time ∧ Float.roundQ c.details.time = c.details.time) ∧
      0 ≤ c.details.wallTime ∧ Float.roundQ c.details.wallTime = c.details.wallTime) ∧
    (grade sampleEnv sample).time = 3/2 ∧ (grade sampleEnv sample).wallTime = 3 :=
  ⟨sample_hyps.1, by decide +kernel, by decide +kernel, by decide +kernel⟩

-- a sum that is rounded: 0.1 + 0.2
example : (collect [child "a" (1/10) 7, child "b" (2/10) 5]).time ≠ 1/10 + 2/10 ∧
    (collect [child "a" (1/10) 7, child "b" (2/10) 5]).memory = 14 := by
  decide +kernel

/-- An interactive case with a parent and two children. -/
def interactive : Problem :=
  { sample with groups := [{ name := "a", cases := [{ sampleCase "a.1" 1 .OK (some [0x31]) with
      procs := [child "a" (1/2) 100,
        { name := "Main", kind := .problemsetter, result := { verdict := .OK, memory := 50 } },
        { hungry with result := { hungry.result with memory := 70 } }] }] }] }

example : (grade sampleEnv interactive).verdict = .MLE ∧ (grade sampleEnv interactive).memory = 200 ∧
    ((grade sampleEnv interactive).cases.map fun c => c.individual.map Prod.fst) = [["b", "Main", "a"]] ∧
    ((grade sampleEnv interactive).cases.map fun c => c.details.exitStatus) = [1] := by
  decide +kernel

-- the same problem with a custom validator, which is listed although the case has only one process
example : ((grade sampleEnv { sample with validator := { name := "custom", tolerance := none }, groups := [{ name := "a", cases :=
      [{ sampleCase "a.1" 1 .OK (some [0x31]) with validatorMeta := { verdict := .RTE, exitStatus := 3 } }] }] }).cases.map
        fun c => (c.details.verdict, c.individual)) = [(.OK, [("validator", { verdict := .RTE, exitStatus := 3 })])] := by
  decide +kernel

end Quark.Grade
