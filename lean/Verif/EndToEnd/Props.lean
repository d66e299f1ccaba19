import Verif.EndToEnd.Model

/-!
# C139: what is recorded is what the cases earned
-/
namespace Quark.EndToEnd
open Quark.Float (F64 fl roundQ)
open Quark.MetaFile (Verdict)
open Quark.Validator (Env)
open Quark.Settings (Near)

/-! ## Specification -/

/-- The points a group earns: nothing if one of its cases scored nothing, else the score of each case times its
weight. -/
def groupEarned (ws qs : List ℚ) : ℚ := if 0 ∈ qs then 0 else (List.zipWith (fun w q => w * q) ws qs).sum

/-- The fraction of the weights of the problem, group by group, that these case scores earn. -/
def earned (ws qs : List (List ℚ)) : ℚ := (List.zipWith groupEarned ws qs).sum / ws.flatten.sum

/-- The weights of the settings of a problem, group by group. -/
def HasWeights {ι : Type} (s : Settings.Problem ι) (ws : List (List ℚ)) : Prop :=
  ((s.cases.getD []).map fun g => (g.cases.getD []).map Settings.Case.weight) = ws.map (List.map some)

/-- The scores of the cases of a result, group by group. -/
def caseScores (r : Grade.RunResult) : List (List ℚ) := r.groups.map fun g => g.cases.map Grade.CaseResult.score

/-! ## Shares of perturbed weights -/

/-- How far the shares of two lists of weights are apart. -/
def apart (S U : ℚ) (ws us : List ℚ) : ℚ := (List.zipWith (fun w u => |u / U - w / S|) ws us).sum

theorem apart_nonneg (S U : ℚ) (ws us : List ℚ) : 0 ≤ apart S U ws us := by
  unfold apart
  induction ws generalizing us with
  | nil => simp
  | cons w ws ih =>
    cases us with
    | nil => simp
    | cons u us =>
      simp only [List.zipWith_cons_cons, List.sum_cons]
      exact add_nonneg (abs_nonneg _) (ih us)

theorem apart_append {S U : ℚ} {ws us : List ℚ} (h : ws.length = us.length) (ws' us' : List ℚ) :
    apart S U (ws ++ ws') (us ++ us') = apart S U ws us + apart S U ws' us' := by
  unfold apart
  rw [List.zipWith_append h, List.sum_append]

theorem apart_le {η S U n : ℚ} {ws us : List ℚ} (h : Near η ws us) (hw : ∀ w ∈ ws, 0 ≤ w) (hS : 0 < S)
    (hU : |U - S| ≤ n * η) (hn : n * η < S) :
    apart S U ws us ≤ η * (ws.length + n * (ws.sum / S)) / (S - n * η) := by
  unfold apart
  induction h with
  | nil => simp
  | @cons w u ws us h1 h2 ih =>
    have i := ih (fun w hw' => hw w (by simp [hw']))
    have j := Settings.share_error (hw w (by simp)) hS h1 hU hn
    simp only [List.zipWith_cons_cons, List.sum_cons, List.length_cons, Nat.cast_add, Nat.cast_one]
    have e : η * ((ws.length : ℚ) + 1 + n * ((w + ws.sum) / S)) / (S - n * η)
        = η * (1 + n * (w / S)) / (S - n * η) + η * (ws.length + n * (ws.sum / S)) / (S - n * η) := by ring
    rw [e]
    exact add_le_add j i

theorem group_apart {S U : ℚ} {ws us qs : List ℚ} (hl : ws.length = us.length)
    (hq : ∀ q ∈ qs, 0 ≤ q ∧ q ≤ 1) :
    |groupEarned us qs / U - groupEarned ws qs / S| ≤ apart S U ws us := by
  unfold groupEarned
  split
  · simpa using apart_nonneg S U ws us
  · rename_i h0
    clear h0
    induction ws generalizing us qs with
    | nil =>
      cases us with
      | nil => simp [apart]
      | cons _ _ => simp at hl
    | cons w ws ih =>
      cases us with
      | nil => simp at hl
      | cons u us =>
        cases qs with
        | nil => simpa using apart_nonneg S U (w :: ws) (u :: us)
        | cons q qs =>
          have i := ih (us := us) (qs := qs) (by simpa using hl) (fun q hq' => hq q (by simp [hq']))
          obtain ⟨q0, q1⟩ := hq q (by simp)
          have e : apart S U (w :: ws) (u :: us) = |u / U - w / S| + apart S U ws us := by
            simp [apart]
          rw [e]
          simp only [List.zipWith_cons_cons, List.sum_cons]
          generalize (List.zipWith (fun w q => w * q) us qs).sum = A at *
          generalize (List.zipWith (fun w q => w * q) ws qs).sum = B at *
          have e2 : (u * q + A) / U - (w * q + B) / S = q * (u / U - w / S) + (A / U - B / S) := by ring
          rw [e2]
          refine (abs_add_le _ _).trans (add_le_add ?_ i)
          rw [abs_mul, abs_of_nonneg q0]
          exact mul_le_of_le_one_left (abs_nonneg _) q1

theorem sum_apart {S U : ℚ} {η : ℚ} {ws us qs : List (List ℚ)} (h : List.Forall₂ (Near η) ws us)
    (hq : ∀ l ∈ qs, ∀ q ∈ l, 0 ≤ q ∧ q ≤ 1) :
    |(List.zipWith groupEarned us qs).sum / U - (List.zipWith groupEarned ws qs).sum / S|
      ≤ apart S U ws.flatten us.flatten := by
  induction h generalizing qs with
  | nil => simp [apart]
  | @cons w u ws us h1 h2 ih =>
    cases qs with
    | nil => simpa using apart_nonneg S U _ _
    | cons q qs =>
      have i := ih (qs := qs) (fun l hl => hq l (by simp [hl]))
      have j := group_apart (S := S) (U := U) (qs := q) h1.length_eq (hq q (by simp))
      simp only [List.zipWith_cons_cons, List.sum_cons, List.flatten_cons]
      rw [apart_append h1.length_eq]
      have e : (groupEarned u q + (List.zipWith groupEarned us qs).sum) / U
            - (groupEarned w q + (List.zipWith groupEarned ws qs).sum) / S
          = (groupEarned u q / U - groupEarned w q / S)
            + ((List.zipWith groupEarned us qs).sum / U - (List.zipWith groupEarned ws qs).sum / S) := by ring
      rw [e]
      exact (abs_add_le _ _).trans (add_le_add j i)

theorem near_flatten {η : ℚ} {ws us : List (List ℚ)} (h : List.Forall₂ (Near η) ws us) :
    Near η ws.flatten us.flatten := by
  induction h with
  | nil => exact .nil
  | cons h1 h2 ih =>
    simp only [List.flatten_cons]
    exact List.rel_append h1 ih

/-- The fraction earned changes little when the weights do. -/
theorem earned_near {η : ℚ} {ws us qs : List (List ℚ)} (h : List.Forall₂ (Near η) ws us)
    (hw : ∀ w ∈ ws.flatten, 0 ≤ w) (hS : 0 < ws.flatten.sum) (hn : ws.flatten.length * η < ws.flatten.sum)
    (hq : ∀ l ∈ qs, ∀ q ∈ l, 0 ≤ q ∧ q ≤ 1) :
    |earned us qs - earned ws qs|
      ≤ 2 * ws.flatten.length * η / (ws.flatten.sum - ws.flatten.length * η) := by
  have hf := near_flatten h
  have a := sum_apart (S := ws.flatten.sum) (U := us.flatten.sum) h hq
  have b := apart_le hf hw hS (Settings.near_sum hf) hn
  unfold earned
  refine a.trans (b.trans (le_of_eq ?_))
  rw [div_self hS.ne']
  ring

theorem groupEarned_nonneg {ws qs : List ℚ} (hw : ∀ w ∈ ws, 0 ≤ w) (hq : ∀ q ∈ qs, 0 ≤ q ∧ q ≤ 1) :
    0 ≤ groupEarned ws qs ∧ groupEarned ws qs ≤ ws.sum := by
  have hs : 0 ≤ ws.sum := List.sum_nonneg hw
  unfold groupEarned
  split
  · exact ⟨le_rfl, hs⟩
  · clear hs
    rename_i h0
    clear h0
    induction ws generalizing qs with
    | nil => simp
    | cons w ws ih =>
      cases qs with
      | nil => exact ⟨by simp, List.sum_nonneg hw⟩
      | cons q qs =>
        obtain ⟨i1, i2⟩ := ih (qs := qs) (fun w hw' => hw w (by simp [hw'])) (fun q hq' => hq q (by simp [hq']))
        obtain ⟨q0, q1⟩ := hq q (by simp)
        have w0 := hw w (by simp)
        simp only [List.zipWith_cons_cons, List.sum_cons]
        exact ⟨add_nonneg (mul_nonneg w0 q0) i1, add_le_add (mul_le_of_le_one_right w0 q1) i2⟩

theorem earned_bounds {ws qs : List (List ℚ)} (hw : ∀ w ∈ ws.flatten, 0 ≤ w) (hS : 0 < ws.flatten.sum)
    (hq : ∀ l ∈ qs, ∀ q ∈ l, 0 ≤ q ∧ q ≤ 1) : 0 ≤ earned ws qs ∧ earned ws qs ≤ 1 := by
  have key : 0 ≤ (List.zipWith groupEarned ws qs).sum ∧
      (List.zipWith groupEarned ws qs).sum ≤ ws.flatten.sum := by
    clear hS
    induction ws generalizing qs with
    | nil => simp
    | cons w ws ih =>
      cases qs with
      | nil => exact ⟨by simp, List.sum_nonneg hw⟩
      | cons q qs =>
        obtain ⟨i1, i2⟩ := ih (qs := qs)
          (fun x hx => hw x (by rw [List.flatten_cons, List.mem_append]; exact .inr hx))
          (fun l hl => hq l (by simp [hl]))
        obtain ⟨j1, j2⟩ := groupEarned_nonneg (ws := w) (qs := q)
          (fun x hx => hw x (by rw [List.flatten_cons, List.mem_append]; exact .inl hx)) (hq q (by simp))
        simp only [List.zipWith_cons_cons, List.sum_cons, List.flatten_cons, List.sum_append]
        exact ⟨add_nonneg j1 i1, add_le_add j2 i2⟩
  unfold earned
  exact ⟨div_nonneg key.1 hS.le, (div_le_one hS).mpr key.2⟩

/-! ## The score of `Grade` -/

theorem case_scores_range (env : Env) (p : Grade.Problem) (hc : Grade.Compiles p) :
    ∀ l ∈ caseScores (Grade.grade env p), ∀ q ∈ l, 0 ≤ q ∧ q ≤ 1 := by
  obtain ⟨ys, -, hf, hm, hg, -⟩ := Grade.grade_ok env p hc.1 (Grade.compileAll_ok _ hc.2)
  unfold caseScores
  rw [hg]
  intro l hl q hq
  obtain ⟨g, hg', rfl⟩ := List.mem_map.mp hl
  obtain ⟨y, hy, rfl⟩ := List.mem_map.mp hg'
  obtain ⟨c, hcm, rfl⟩ := List.mem_map.mp hq
  obtain ⟨x, hx, rfl⟩ := List.mem_map.mp hcm
  obtain ⟨-, -, -, h4, h5, -⟩ := Grade.fin_spec env p x (hf y hy x hx)
  exact ⟨h4, h5⟩

theorem worth_eq (W : ℚ) (ws qs : List ℚ) : Grade.groupWorth W ws qs = groupEarned ws qs / W := by
  unfold Grade.groupWorth groupEarned
  split
  · simp
  · rename_i h; clear h
    induction ws generalizing qs with
    | nil => simp
    | cons w ws ih =>
      cases qs with
      | nil => simp
      | cons q qs =>
        simp only [List.zipWith_cons_cons, List.sum_cons, ih]
        ring

theorem weightSum_flatten (p : Grade.Problem) : Grade.weightSum p = (Grade.weights p).flatten.sum := by
  unfold Grade.weightSum Grade.weights
  rw [List.map_flatMap, ← List.flatMap_def]

theorem grade_earned (env : Env) (p : Grade.Problem) (hc : Grade.Compiles p) (hfs : Grade.FromSandbox p)
    (ho : Grade.Openable p) (hw : 0 < Grade.weightSum p) :
    (Grade.grade env p).score = earned (Grade.weights p) (caseScores (Grade.grade env p)) := by
  rw [Grade.C135_score_formula env p hc hfs ho hw]
  unfold earned caseScores
  rw [weightSum_flatten]
  generalize ((Grade.grade env p).groups.map fun g => g.cases.map Grade.CaseResult.score) = qs
  generalize (Grade.weights p).flatten.sum = W
  generalize Grade.weights p = ws
  induction ws generalizing qs with
  | nil => simp
  | cons w ws ih =>
    cases qs with
    | nil => simp
    | cons q qs =>
      simp only [List.zipWith_cons_cons, List.sum_cons]
      rw [ih, worth_eq, add_div]

/-! ## What arrives -/

theorem round_near {q : ℚ} (h : |q| ≤ 10000000) : |roundQ q - q| ≤ 1 / 100000000 := by
  have h1 := Wire.roundQ_err_abs q
  have h2 : (1 : ℚ) / 2 ^ (1075 : ℕ) ≤ 1 / 2 ^ (53 : ℕ) :=
    one_div_le_one_div_of_le (pow_pos (by norm_num) _) (pow_le_pow_right₀ (by norm_num) (by norm_num))
  have h3 : |q| / 2 ^ (53 : ℕ) ≤ 10000000 / 2 ^ (53 : ℕ) :=
    div_le_div_of_nonneg_right h (pow_pos (by norm_num) _).le
  have h4 : (10000000 : ℚ) / 2 ^ (53 : ℕ) + 1 / 2 ^ (53 : ℕ) ≤ 1 / 100000000 := by norm_num
  generalize (1 : ℚ) / 2 ^ (1075 : ℕ) = a at *
  linarith

theorem fl_near {q : ℚ} (h : |q| ≤ 10000000) : ∃ x, fl q = .fin x ∧ |x - q| ≤ 1 / 100000000 := by
  have h1 := round_near h
  refine ⟨roundQ q, ?_, h1⟩
  unfold fl
  rw [if_pos]
  have h2 : (2 : ℚ) ^ (24 : ℕ) ≤ 2 ^ (1024 : ℕ) := pow_le_pow_right₀ (by norm_num) (by norm_num)
  have h3 : |roundQ q| ≤ 2 ^ (24 : ℕ) - 1 := by
    have := abs_sub_abs_le_abs_sub (roundQ q) q
    norm_num
    linarith
  generalize (2 : ℚ) ^ (1024 : ℕ) = a at *
  linarith

theorem trip_near {ofF : ℚ → ℚ} (hof : ∀ x, |ofF x - x| ≤ 1 / 1000000) {q : ℚ} (h : |q| ≤ 10000000) :
    |ofF (roundQ q) - q| ≤ 101 / 100000000 := by
  have h1 := round_near h
  have h2 := hof (roundQ q)
  have e : ofF (roundQ q) - q = (ofF (roundQ q) - roundQ q) + (roundQ q - q) := by ring
  rw [e]
  refine (abs_add_le _ _).trans ?_
  linarith

/-- The weights that `Grade` works with. -/
theorem weights_arrive {ι : Type} {C : Settings.Codecs ι} {zero : ι} {ofF : ℚ → ℚ} {s s' : Settings.Problem ι}
    (hclean : s.Clean) (hs : sendSettings C zero ofF s = some s') {run : Wire.Run} {p : Grade.Problem}
    (hcw : CalledWith run s' p) {ws : List (List ℚ)} (hws : HasWeights s ws) :
    Grade.weights p = ws.map (List.map fun w => ofF (roundQ w)) := by
  unfold sendSettings at hs
  cases hj : Settings.encProblem C s with
  | none => rw [hj] at hs; simp at hs
  | some j =>
    rw [hj, Option.bind_some, Settings.C131_settings_arrive C zero ofF s hclean j hj] at hs
    obtain rfl := Option.some.inj hs
    have h := hcw.weights
    have inj : ∀ a b : List (List ℚ), a.map (List.map some) = b.map (List.map some) → a = b := by
      intro a b hab
      exact List.map_injective_iff.mpr (List.map_injective_iff.mpr (Option.some_injective ℚ)) hab
    apply inj
    have e1 : (Grade.weights p).map (List.map some) = p.groups.map fun g => g.cases.map fun c => some c.weight := by
      simp [Grade.weights, Function.comp_def]
    rw [e1, ← h]
    have e2 : (ws.map (List.map fun w => ofF (roundQ w))).map (List.map some)
        = (ws.map (List.map some)).map (List.map (Option.map fun w => ofF (roundQ w))) := by
      simp [Function.comp_def]
    rw [e2, ← hws]
    unfold Settings.Problem.reweigh
    cases s.cases with
    | none => simp
    | some gs =>
      simp only [Option.map_some, Option.getD_some, List.map_map, Function.comp_def]
      apply List.map_congr_left
      intro g _
      unfold Settings.Group.reweigh
      cases g.cases with
      | none => simp
      | some cs => simp [Function.comp_def, Settings.Case.reweigh]

/-- The maximum score that `Grade` works with. -/
theorem max_arrives {ι : Type} {ofF : ℚ → ℚ} {run run' : Wire.Run} (hr : sendRun ofF run = some run')
    {s' : Settings.Problem ι} {p : Grade.Problem} (hcw : CalledWith run' s' p) {m : ℚ} (hm : run.maxScore = some m) :
    p.maxScore = ofF (roundQ m) := by
  unfold sendRun at hr
  cases hj : Wire.encRun run with
  | none => rw [hj] at hr; simp at hr
  | some j =>
    rw [hj, Option.bind_some, Wire.C82_run_arrives ofF run j hj] at hr
    obtain rfl := Option.some.inj hr
    have := hcw.maxScore
    simp only [hm, Option.map_some, Option.some.injEq, Wire.scoreTrip] at this
    exact this.symm

theorem verdict_text (v : Verdict) : text (Wire.clean (bytes v.name)) = v.name.toList := by
  cases v <;> decide +kernel

/-- The result that is published. -/
theorem outcome_eq {ofF : ℚ → ℚ} {env : Env} {p : Grade.Problem} {ce : Option Wire.Bytes} {cm : Wire.MetaMap}
    {runnerName : Wire.Bytes} {info f : Publish.Finished}
    (h : outcome ofF env p ce cm runnerName info = some f) :
    f = { info with
      verdict := (Grade.grade env p).verdict.name.toList, time := .fin (Grade.grade env p).time
      memory := (Int64.ofInt (Grade.grade env p).memory).toInt
      score := ofF (roundQ (Grade.grade env p).score)
      contestScore := ofF (roundQ (Grade.grade env p).contestScore), judgedBy := text runnerName } := by
  unfold outcome at h
  cases hj : Wire.encResult (details ce cm (Grade.grade env p)) with
  | none => rw [hj] at h; simp at h
  | some j =>
    rw [hj, Option.bind_some, receive, Wire.C83_result_arrives ofF _ j hj] at h
    simp only [Option.map_some, Option.bind_some, finished, Wire.RunResult.carried, details, Option.some.injEq,
      verdict_text, Wire.scoreTrip] at h
    exact h.symm

/-! ## C139 -/

/-- One attempt at a problem, from the settings and the run of the grader to the entry in its list of finished runs.
`ofF` is `base.FloatToRational`. -/
structure Attempt {ι : Type} (C : Settings.Codecs ι) (zero : ι) (ofF : ℚ → ℚ) (env : Env) (s : Settings.Problem ι)
    (run : Wire.Run) (p : Grade.Problem) (runnerName : Wire.Bytes) (info f : Publish.Finished) : Prop where
  /-- the names in the settings are valid UTF-8 -/
  clean : s.Clean
  /-- the runner grades with what it receives -/
  called : ∃ run' s', sendRun ofF run = some run' ∧ sendSettings C zero ofF s = some s' ∧ CalledWith run' s' p
  compiles : Grade.Compiles p
  sandbox : Grade.FromSandbox p
  openable : Grade.Openable p
  /-- the result that the runner uploads reaches the post-processor -/
  uploaded : ∃ ce cm, outcome ofF env p ce cm runnerName info = some f

/-- The estimate behind C139: the score and contest score that are published, in terms of the settings. -/
theorem published_scores {ι : Type} {C : Settings.Codecs ι} {zero : ι} {ofF : ℚ → ℚ} {env : Env}
    {s : Settings.Problem ι} {run : Wire.Run} {p : Grade.Problem} {runnerName : Wire.Bytes} {info f : Publish.Finished}
    (h : Attempt C zero ofF env s run p runnerName info f)
    (hof : ∀ x, |ofF x - x| ≤ 1 / 1000000)
    {ws : List (List ℚ)} (hws : HasWeights s ws) (hpos : ∀ w ∈ ws.flatten, 0 ≤ w ∧ w ≤ 1000000)
    (hS : 0 < ws.flatten.sum) (hn : 33 / 10000000 * ws.flatten.length ≤ ws.flatten.sum)
    {m : ℚ} (hm : run.maxScore = some m) (hm0 : 0 ≤ m) (hm1 : m ≤ 1000000) :
    ∃ e, e = earned ws (caseScores (Grade.grade env p)) ∧
    (∃ x, fl f.score = .fin x ∧
      |x - e| ≤ 33 / 10000000 * (ws.flatten.length / ws.flatten.sum) + 11 / 10000000) ∧
    (∃ y, fl f.contestScore = .fin y ∧
      |y - m * e| ≤ m * (33 / 10000000 * (ws.flatten.length / ws.flatten.sum)) + 4 / 1000000) := by
  obtain ⟨run', s', hr, hs, hcw⟩ := h.called
  obtain ⟨ce, cm, ho⟩ := h.uploaded
  have hw := weights_arrive h.clean hs hcw hws
  have hmx := max_arrives hr hcw hm
  have hf := outcome_eq ho
  have hq := case_scores_range env p h.compiles
  have hnear : List.Forall₂ (Near (11 / 10000000)) ws (Grade.weights p) := by
    rw [hw, List.forall₂_map_right_iff, List.forall₂_same]
    intro l hl
    unfold Near
    rw [List.forall₂_map_right_iff, List.forall₂_same]
    intro w hwm
    obtain ⟨h0, h1⟩ := hpos w (List.mem_flatten.mpr ⟨l, hl, hwm⟩)
    have := trip_near hof (q := w) (by rw [abs_of_nonneg h0]; linarith)
    linarith
  have hlen : (0 : ℚ) ≤ ws.flatten.length := Nat.cast_nonneg _
  have hlt : (ws.flatten.length : ℚ) * (11 / 10000000) < ws.flatten.sum := by linarith
  have hen := earned_near hnear (fun w hw => (hpos w hw).1) hS hlt hq
  have hE : 2 * (ws.flatten.length : ℚ) * (11 / 10000000) / (ws.flatten.sum - ws.flatten.length * (11 / 10000000))
      ≤ 33 / 10000000 * (ws.flatten.length / ws.flatten.sum) := by
    generalize (ws.flatten.length : ℚ) = n at *
    generalize ws.flatten.sum = S at *
    rw [div_le_iff₀ (by linarith)]
    have e : 33 / 10000000 * (n / S) * (S - n * (11 / 10000000))
        = 33 / 10000000 * n - 33 / 10000000 * n * (11 / 10000000 * (n / S)) := by field_simp
    rw [e]
    have h1 : 33 / 10000000 * (n / S) ≤ 1 := by
      rw [← mul_div_assoc]; exact (div_le_one hS).mpr hn
    have h2 : 11 / 10000000 * (n / S) ≤ 1 / 3 := by linarith
    have h3 := mul_le_mul_of_nonneg_left h2 (show (0 : ℚ) ≤ 33 / 10000000 * n by linarith)
    linarith
  have hU : 0 < Grade.weightSum p := by
    rw [weightSum_flatten]
    have := abs_le.mp (Settings.near_sum (near_flatten hnear))
    linarith
  have hsc := grade_earned env p h.compiles h.sandbox h.openable hU
  have hcs : (Grade.grade env p).contestScore = p.maxScore * (Grade.grade env p).score :=
    (Grade.grade_ok env p h.compiles.1 (Grade.compileAll_ok _ h.compiles.2)).choose_spec.2.2.2.2.2.1
  have hb := earned_bounds (qs := caseScores (Grade.grade env p)) (fun w hw => (hpos w hw).1) hS hq
  refine ⟨_, rfl, ?_⟩
  rw [← hsc] at hen
  rw [hmx] at hcs
  have hfs : f.score = ofF (roundQ (Grade.grade env p).score) := by rw [hf]
  have hfc : f.contestScore = ofF (roundQ (Grade.grade env p).contestScore) := by rw [hf]
  have hE1 : 33 / 10000000 * ((ws.flatten.length : ℚ) / ws.flatten.sum) ≤ 1 := by
    rw [← mul_div_assoc]; exact (div_le_one hS).mpr hn
  have hE0 : 0 ≤ 33 / 10000000 * ((ws.flatten.length : ℚ) / ws.flatten.sum) :=
    mul_nonneg (by norm_num) (div_nonneg hlen hS.le)
  have hd := hen.trans hE
  have hmd := trip_near hof (q := m) (by rw [abs_of_nonneg hm0]; linarith)
  rw [hfs, hfc, hcs]
  generalize 33 / 10000000 * ((ws.flatten.length : ℚ) / ws.flatten.sum) = E at *
  generalize earned ws (caseScores (Grade.grade env p)) = e at *
  generalize (Grade.grade env p).score = sc at *
  generalize ofF (roundQ m) = m' at *
  clear hn hws hf hq hnear hlen hlt hen hE hU hsc hcs hfs hfc hw hmx ho hr hs hcw h hpos hS hm
  have hsc2 : |sc| ≤ 2 := by
    rw [abs_le] at *
    obtain ⟨a, b⟩ := hd
    constructor <;> linarith
  constructor
  · have t := trip_near hof (q := sc) (by linarith)
    generalize ofF (roundQ sc) = t' at *
    have t2 : |t'| ≤ 3 := by
      rw [abs_le] at *
      obtain ⟨a, b⟩ := t
      obtain ⟨c, d⟩ := hsc2
      constructor <;> linarith
    obtain ⟨x, hx, hx2⟩ := fl_near (q := t') (by linarith)
    refine ⟨x, hx, ?_⟩
    rw [abs_le] at *
    obtain ⟨a, b⟩ := t
    obtain ⟨c, d⟩ := hd
    obtain ⟨a', b'⟩ := hx2
    constructor <;> linarith
  · have hc : |m' * sc - m * e| ≤ m * E + 202 / 100000000 := by
      have e1 : m' * sc - m * e = (m' - m) * sc + m * (sc - e) := by ring
      rw [e1]
      refine (abs_add_le _ _).trans ?_
      rw [abs_mul, abs_mul, abs_of_nonneg hm0]
      have h1 := mul_le_mul hmd hsc2 (abs_nonneg _) (by norm_num)
      have h2 := mul_le_mul_of_nonneg_left hd hm0
      linarith
    have hme : 0 ≤ m * e ∧ m * e ≤ 1000000 :=
      ⟨mul_nonneg hm0 hb.1, (mul_le_of_le_one_right hm0 hb.2).trans hm1⟩
    have hmE : m * E ≤ 1000000 := (mul_le_of_le_one_right hm0 hE1).trans hm1
    have hc2 : |m' * sc| ≤ 3000000 := by
      rw [abs_le] at *
      obtain ⟨a, b⟩ := hc
      constructor <;> linarith
    have t := trip_near hof (q := m' * sc) (by linarith)
    generalize ofF (roundQ (m' * sc)) = t' at *
    have t2 : |t'| ≤ 4000000 := by
      rw [abs_le] at *
      obtain ⟨a, b⟩ := t
      obtain ⟨c, d⟩ := hc2
      constructor <;> linarith
    obtain ⟨y, hy, hy2⟩ := fl_near (q := t') (by linarith)
    refine ⟨y, hy, ?_⟩
    rw [abs_le] at *
    obtain ⟨a, b⟩ := t
    obtain ⟨c, d⟩ := hc
    obtain ⟨a', b'⟩ := hy2
    constructor <;> linarith

/-- **C139** From the settings of the problem to the row of the submission. If the last result recorded for a
submission is that of an attempt that was graded with these settings, its row is ready and has the verdict and the memory
that `Grade` found, its running time in milliseconds and the name of the runner, and its score is the fraction of the
weights (as written in the settings) that the cases earned, up to `33/10^7 · n/S + 11/10^7` for `n` cases with total
weight `S`; the contest score, unless the contest has `partial_score = 1`, is the points of the problem times that
fraction, up to the same error times the points, and 4/10^6. `hof` is the documented contract of
`base.FloatToRational`. -/
theorem C139_recorded {ι : Type} {C : Settings.Codecs ι} {zero : ι} {ofF : ℚ → ℚ} {env : Env}
    {s : Settings.Problem ι} {run : Wire.Run} {p : Grade.Problem} {runnerName : Wire.Bytes} {info f : Publish.Finished}
    (h : Attempt C zero ofF env s run p runnerName info f)
    (hof : ∀ x, |ofF x - x| ≤ 1 / 1000000)
    {ws : List (List ℚ)} (hws : HasWeights s ws) (hpos : ∀ w ∈ ws.flatten, 0 ≤ w ∧ w ≤ 1000000)
    (hS : 0 < ws.flatten.sum) (hn : 33 / 10000000 * ws.flatten.length ≤ ws.flatten.sum)
    {m : ℚ} (hm : run.maxScore = some m) (hm0 : 0 ≤ m) (hm1 : m ≤ 1000000)
    (hmem : -2 ^ 63 ≤ (Grade.grade env p).memory ∧ (Grade.grade env p).memory < 2 ^ 63)
    {cfg : Publish.Config} (hcfg : cfg.updateDatabase = true) {st : Publish.State} {row : Publish.Row}
    (hrow : st.db info.id = some row) {runs : List (Publish.Finished × Bool)}
    (hlast : Publish.lastRecorded (fun r => r.id == info.id) runs = some f) :
    ∃ row' x e, (Publish.postProcess cfg st runs).db info.id = some row' ∧
      row'.ready = true ∧ row'.verdict = (Grade.grade env p).verdict.name.toList ∧
      row'.memory = (Grade.grade env p).memory ∧ row'.judgedBy = text runnerName ∧
      row'.runtime = (F64.fin (Grade.grade env p).time).mul (.fin 1000) ∧
      e = earned ws (caseScores (Grade.grade env p)) ∧
      row'.score = .fin x ∧
      |x - e| ≤ 33 / 10000000 * (ws.flatten.length / ws.flatten.sum) + 11 / 10000000 ∧
      (info.partialScore ≠ 1 → ∃ y, row'.contestScore = .fin y ∧
        |y - m * e| ≤ m * (33 / 10000000 * (ws.flatten.length / ws.flatten.sum)) + 4 / 1000000) := by
  obtain ⟨e, he, ⟨x, hx, hx2⟩, y, hy, hy2⟩ := published_scores h hof hws hpos hS hn hm hm0 hm1
  obtain ⟨ce, cm, ho⟩ := h.uploaded
  have hf := outcome_eq ho
  obtain ⟨row', h1, -, h2, -⟩ := (Publish.C95_recorded cfg st runs info.id).2.2 row hrow hcfg
  rw [hlast] at h2
  obtain ⟨a1, a2, a3, a4, a5, a6⟩ := h2
  obtain ⟨row2, b1, b2, -⟩ := Publish.C96_contest_score cfg st runs info.id row hrow hcfg f hlast
  rw [h1] at b1
  obtain rfl := Option.some.inj b1
  refine ⟨row', x, e, h1, a1, by rw [a2, hf], ?_, by rw [a6, hf], by rw [a3, hf], he, by rw [a5, hx], hx2, ?_⟩
  · rw [a4, hf]
    exact Int64.toInt_ofInt_of_le hmem.1 hmem.2
  · intro hp
    have : f.partialScore = info.partialScore := by rw [hf]
    exact ⟨y, by rw [b2 (.inl (by rw [this]; exact hp)), hy], hy2⟩

/-- **C139** Full marks are exact: the verdict of the row is `AC` exactly if every case was accepted, and then the score
is 1 and the contest score is the points of the problem, with no error at all, if `base.FloatToRational` gives back the
numbers 1 and `m` themselves (as it does for whole numbers) and `m` is a binary64 number. -/
theorem C139_full_marks {ι : Type} {C : Settings.Codecs ι} {zero : ι} {ofF : ℚ → ℚ} {env : Env}
    {s : Settings.Problem ι} {run : Wire.Run} {p : Grade.Problem} {runnerName : Wire.Bytes} {info f : Publish.Finished}
    (h : Attempt C zero ofF env s run p runnerName info f)
    {m : ℚ} (hm : run.maxScore = some m) (hfl : fl m = .fin m) (hof1 : ofF 1 = 1) (hofm : ofF m = m)
    {cfg : Publish.Config} (hcfg : cfg.updateDatabase = true) {st : Publish.State} {row : Publish.Row}
    (hrow : st.db info.id = some row) {runs : List (Publish.Finished × Bool)}
    (hlast : Publish.lastRecorded (fun r => r.id == info.id) runs = some f) :
    ∃ row', (Publish.postProcess cfg st runs).db info.id = some row' ∧
      (row'.verdict = ['A', 'C'] ↔ ∀ c ∈ (Grade.grade env p).cases, c.verdict = .AC) ∧
      (row'.verdict = ['A', 'C'] → row'.score = .fin 1 ∧
        (info.partialScore ≠ 1 ∨ m = 1 → row'.contestScore = .fin m)) := by
  obtain ⟨ce, cm, ho⟩ := h.uploaded
  obtain ⟨run', s', hr, hs, hcw⟩ := h.called
  have hmx := max_arrives hr hcw hm
  have hf := outcome_eq ho
  obtain ⟨row', h1, -, h2, -⟩ := (Publish.C95_recorded cfg st runs info.id).2.2 row hrow hcfg
  rw [hlast] at h2
  obtain ⟨a1, a2, a3, a4, a5, a6⟩ := h2
  obtain ⟨row2, b1, b2, -⟩ := Publish.C96_contest_score cfg st runs info.id row hrow hcfg f hlast
  rw [h1] at b1
  obtain rfl := Option.some.inj b1
  have hac := Grade.C15_ac_iff_all_ac_partial env p h.compiles h.sandbox h.openable
  have hv : row'.verdict = ['A', 'C'] ↔ (Grade.grade env p).verdict = .AC := by
    rw [a2, hf]
    simp only
    generalize (Grade.grade env p).verdict = v
    cases v <;> decide +kernel
  refine ⟨row', h1, hv.trans hac.1, ?_⟩
  intro hr
  have h1' := hac.2 (hv.mp hr)
  have hrm : roundQ m = m := by
    unfold fl at hfl
    split at hfl
    · exact F64.fin.inj hfl
    · cases hfl
  have hfl1 : fl 1 = .fin 1 := by decide +kernel
  have hr1 : roundQ 1 = 1 := by decide +kernel
  have hcs : (Grade.grade env p).contestScore = p.maxScore * (Grade.grade env p).score :=
    (Grade.grade_ok env p h.compiles.1 (Grade.compileAll_ok _ h.compiles.2)).choose_spec.2.2.2.2.2.1
  have hfs : f.score = 1 := by rw [hf]; simp only; rw [h1', hr1, hof1]
  have hfc : f.contestScore = m := by
    rw [hf]; simp only
    rw [hcs, h1', mul_one, hmx, hrm, hofm, hrm, hofm]
  refine ⟨by rw [a5, hfs, hfl1], ?_⟩
  intro hp
  rw [b2 ?_, hfc, hfl]
  have : f.partialScore = info.partialScore := by rw [hf]
  rcases hp with hp | hp
  · exact .inl (by rw [this]; exact hp)
  · exact .inr (by rw [hfc, hp, hfl1])

/-- **C139** Recorded results are fair: of two attempts at the same problem with the same settings, on whatever
runners, the one that scored at least as much on every case has at least as high a score and contest score in the
database, with no error at all, if `base.FloatToRational` is monotone and gives 0 for 0. -/
theorem C139_fair {ι : Type} {C : Settings.Codecs ι} {zero : ι} {ofF : ℚ → ℚ} {env env' : Env}
    {s : Settings.Problem ι} {run run₂ : Wire.Run} {p p' : Grade.Problem} {rn rn' : Wire.Bytes}
    {info f info' f' : Publish.Finished}
    (h : Attempt C zero ofF env s run p rn info f) (h' : Attempt C zero ofF env' s run₂ p' rn' info' f')
    (hmono : ∀ x y, x ≤ y → ofF x ≤ ofF y) (hzero : ofF 0 = 0)
    {ws : List (List ℚ)} (hws : HasWeights s ws) (hpos : ∀ w ∈ ws.flatten, 0 ≤ w)
    (hS : ∃ w ∈ ws.flatten, 0 < ofF (roundQ w))
    {m : ℚ} (hm : run.maxScore = some m) (hm' : run₂.maxScore = some m) (hm0 : 0 ≤ m)
    (hbetter : List.Forall₂ (fun g g' : Grade.GroupResult =>
      List.Forall₂ (fun c c' : Grade.CaseResult => c.score ≤ c'.score) g.cases g'.cases)
      (Grade.grade env p).groups (Grade.grade env' p').groups) :
    (fl f.score).le (fl f'.score) = true ∧ (fl f.contestScore).le (fl f'.contestScore) = true := by
  obtain ⟨ce, cm, ho⟩ := h.uploaded
  obtain ⟨run', s', hr, hs, hcw⟩ := h.called
  obtain ⟨ce', cm', ho'⟩ := h'.uploaded
  obtain ⟨run₂', s₂', hr', hs', hcw'⟩ := h'.called
  have hw := weights_arrive h.clean hs hcw hws
  have hw' := weights_arrive h'.clean hs' hcw' hws
  have hx := max_arrives hr hcw hm
  have hx' := max_arrives hr' hcw' hm'
  have hnn : ∀ w, 0 ≤ w → 0 ≤ ofF (roundQ w) := fun w hw => by
    rw [← hzero]; exact hmono _ _ (Float.roundQ_nonneg hw)
  have hall : ∀ w ∈ (Grade.weights p).flatten, 0 ≤ w := by
    rw [hw]
    intro w hwm
    obtain ⟨l, hl, hwl⟩ := List.mem_flatten.mp hwm
    obtain ⟨l0, hl0, rfl⟩ := List.mem_map.mp hl
    obtain ⟨w0, hw0, rfl⟩ := List.mem_map.mp hwl
    exact hnn _ (hpos _ (List.mem_flatten.mpr ⟨l0, hl0, hw0⟩))
  have hsum : 0 < Grade.weightSum p := by
    rw [weightSum_flatten]
    obtain ⟨w, hwm, hwp⟩ := hS
    obtain ⟨l, hl, hwl⟩ := List.mem_flatten.mp hwm
    refine lt_of_lt_of_le hwp (List.single_le_sum hall _ ?_)
    rw [hw]
    exact List.mem_flatten.mpr ⟨_, List.mem_map.mpr ⟨l, hl, rfl⟩, List.mem_map.mpr ⟨w, hwl, rfl⟩⟩
  have hN : Grade.NonNegative p := by
    refine ⟨by rw [hx]; exact hnn m hm0, ?_⟩
    intro g hg c hc
    refine hall _ (List.mem_flatten.mpr ⟨g.cases.map Grade.Case.weight, ?_, List.mem_map.mpr ⟨c, hc, rfl⟩⟩)
    exact List.mem_map.mpr ⟨g, hg, rfl⟩
  have key := Grade.C135_better_never_scores_less env env' p p' h.compiles h.sandbox h.openable h'.compiles
    h'.sandbox h'.openable hN hsum (by rw [hw, hw']) (by rw [hx, hx']) hbetter
  rw [outcome_eq ho, outcome_eq ho']
  exact ⟨Float.fl_mono (hmono _ _ (Float.roundQ_mono key.1)), Float.fl_mono (hmono _ _ (Float.roundQ_mono key.2))⟩

/-! ## A concrete attempt -/

/-- The settings of the sample problem: weights 1 and 2 in the first group, 1 in the second. -/
def sampleSettings : Settings.Problem Int where
  cases := some [⟨some [⟨[0x61, 0x2E, 0x31], some 1⟩, ⟨[0x61, 0x2E, 0x32], some 2⟩], [0x61]⟩,
    ⟨some [⟨[0x62], some 1⟩], [0x62]⟩]
  validator := { name := [0x74] }

def sampleRun : Wire.Run := ⟨1, [0x6D], [0x70, 0x79], [0x73], [0x68], some 100, false⟩

theorem sampleSettings_clean : sampleSettings.Clean := by
  refine ⟨?_, ⟨[0x74], by decide, by decide⟩, by intro l h; cases h⟩
  intro gs h g hg
  obtain rfl := Option.some.inj h
  simp only [List.mem_cons, List.not_mem_nil, or_false] at hg
  rcases hg with rfl | rfl
  · refine ⟨⟨[0x61], by decide, by decide⟩, ?_⟩
    intro cs h c hc
    obtain rfl := Option.some.inj h
    simp only [List.mem_cons, List.not_mem_nil, or_false] at hc
    rcases hc with rfl | rfl
    · exact ⟨[0x61, 0x2E, 0x31], by decide, by decide⟩
    · exact ⟨[0x61, 0x2E, 0x32], by decide, by decide⟩
  · refine ⟨⟨[0x62], by decide, by decide⟩, ?_⟩
    intro cs h c hc
    obtain rfl := Option.some.inj h
    simp only [List.mem_cons, List.not_mem_nil, or_false] at hc
    subst hc
    exact ⟨[0x62], by decide, by decide⟩

theorem round_whole : roundQ 1 = 1 ∧ roundQ 2 = 2 ∧ roundQ 100 = 100 := by decide +kernel

/-- The hypotheses of C139 are met by the sample run, which loses its last group. -/
theorem sample_attempt : ∃ f, Attempt Settings.plainCodecs 0 id Validator.sampleEnv sampleSettings sampleRun Grade.sample
    [0x72] (Publish.solved 100 2) f ∧ f.score = 3 / 4 ∧ f.contestScore = 75 := by
  have hs : (Settings.encProblem Settings.plainCodecs sampleSettings).isSome = true := by decide +kernel
  obtain ⟨js, hjs⟩ := Option.isSome_iff_exists.mp hs
  have hr : (Wire.encRun sampleRun).isSome = true := by decide +kernel
  obtain ⟨jr, hjr⟩ := Option.isSome_iff_exists.mp hr
  have ho : (Wire.encResult (details none none (Grade.grade Validator.sampleEnv Grade.sample))).isSome = true := by
    decide +kernel
  obtain ⟨jo, hjo⟩ := Option.isSome_iff_exists.mp ho
  have hout : outcome id Validator.sampleEnv Grade.sample none none [0x72] (Publish.solved 100 2)
      = finished (Publish.solved 100 2) { (details none none (Grade.grade Validator.sampleEnv Grade.sample)).carried id with
          judgedBy := [0x72] } := by
    unfold outcome
    rw [hjo, Option.bind_some, receive, Wire.C83_result_arrives id _ jo hjo]
    rfl
  obtain ⟨f, hf⟩ : ∃ f, outcome id Validator.sampleEnv Grade.sample none none [0x72] (Publish.solved 100 2) = some f := by
    rw [hout]
    simp only [finished, Wire.RunResult.carried, details, Option.map_some]
    exact ⟨_, rfl⟩
  have hg : (Grade.grade Validator.sampleEnv Grade.sample).score = 3 / 4 ∧
      (Grade.grade Validator.sampleEnv Grade.sample).contestScore = 75 := by decide +kernel
  have hr2 : roundQ (3 / 4) = 3 / 4 ∧ roundQ 75 = 75 := by decide +kernel
  obtain ⟨h1, h2, h3⟩ := round_whole
  refine ⟨f, ⟨sampleSettings_clean, ⟨⟨1, Wire.clean [0x6D], Wire.clean [0x70, 0x79], Wire.clean [0x73],
    Wire.clean [0x68], some 100, false⟩, sampleSettings.reweigh fun w => id (roundQ w), ?_, ?_, ?_, ?_⟩,
    Grade.sample_hyps.1, Grade.sample_hyps.2.1, Grade.sample_hyps.2.2.1, none, none, hf⟩, ?_, ?_⟩
  · unfold sendRun
    rw [hjr, Option.bind_some, Wire.C82_run_arrives id sampleRun jr hjr]
    simp [sampleRun, Wire.scoreTrip, h3]
  · unfold sendSettings
    rw [hjs, Option.bind_some, Settings.C131_settings_arrive _ 0 id _ sampleSettings_clean js hjs]
  · simp [Grade.sample]
  · simp [sampleSettings, Settings.Problem.reweigh, Settings.Group.reweigh, Settings.Case.reweigh, h1, h2,
        Grade.sample, Grade.sampleCase]
  · rw [outcome_eq hf]; simp only [hg.1, hr2.1, id]
  · rw [outcome_eq hf]; simp only [hg.2, hr2.2, id]

example : HasWeights sampleSettings [[1, 2], [1]] ∧ ([[1, 2], [1]] : List (List ℚ)).flatten.sum = 4 ∧
    caseScores (Grade.grade Validator.sampleEnv Grade.sample) = [[1, 1], [0]] ∧
    earned [[1, 2], [1]] [[1, 1], [0]] = 3 / 4 ∧ Publish.newRow.ready = false :=
  ⟨rfl, by decide +kernel, by decide +kernel, by decide +kernel, rfl⟩

/-- Every hypothesis of `C139_recorded` holds together, and the row says 3/4 and 75 points. -/
example : ∃ f row', (Publish.postProcess ⟨true, true⟩ { db := fun id => if id = 7 then some Publish.newRow else none }
      [(f, true)]).db 7 = some row' ∧ row'.ready = true ∧ row'.verdict = "PA".toList ∧
      Attempt Settings.plainCodecs 0 id Validator.sampleEnv sampleSettings sampleRun Grade.sample [0x72]
        (Publish.solved 100 2) f := by
  obtain ⟨f, hf, -, -⟩ := sample_attempt
  have hfid : f.id = 7 := by
    obtain ⟨ce, cm, ho⟩ := hf.uploaded
    rw [outcome_eq ho]; rfl
  obtain ⟨row', x, e, h1, h2, h3, -⟩ := C139_recorded (ws := [[1, 2], [1]]) (m := 100) hf (by simp)
    rfl (by
      intro w hw
      simp only [List.flatten_cons, List.flatten_nil, List.append_nil, List.cons_append, List.nil_append, List.mem_cons,
        List.not_mem_nil, or_false] at hw
      rcases hw with rfl | rfl | rfl <;> norm_num)
    (by decide +kernel) (by norm_num) rfl (by norm_num) (by norm_num) (by decide +kernel)
    (cfg := ⟨true, true⟩) rfl (st := { db := fun id => if id = 7 then some Publish.newRow else none })
    (row := Publish.newRow) (by simp [Publish.solved]) (runs := [(f, true)])
    (by simp [Publish.lastRecorded, hfid, Publish.solved])
  refine ⟨f, row', h1, h2, ?_, hf⟩
  have hv : (Grade.grade Validator.sampleEnv Grade.sample).verdict = .PA := by decide +kernel
  rw [h3, hv]
  rfl

end Quark.EndToEnd
