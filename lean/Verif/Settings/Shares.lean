import Verif.Settings.Props
import Verif.Wire.Names
import Verif.Literal.Props
import Verif.Grade.Props2

/-!
# C132: the share of each case, C133: missing weights
-/
namespace Quark.Settings
open Quark.Float (F64 fl roundQ)
open Quark.Wire hiding encCase decCase encGroup decGroup CaseResult GroupResult RunResult RawCase
open Quark.Grade (grade)

/-- Weights `us` that are each within `η` of `ws`. -/
def Near (η : ℚ) (ws us : List ℚ) : Prop := List.Forall₂ (fun w u => |u - w| ≤ η) ws us

theorem near_sum {η : ℚ} {ws us : List ℚ} (h : Near η ws us) : |us.sum - ws.sum| ≤ ws.length * η := by
  induction h with
  | nil => simp
  | @cons w u ws us h1 h2 ih =>
    simp only [List.sum_cons, List.length_cons, Nat.cast_add, Nat.cast_one]
    have e : u + us.sum - (w + ws.sum) = (u - w) + (us.sum - ws.sum) := by ring
    rw [e]
    refine (abs_add_le _ _).trans ?_
    linarith

/-- The elementary estimate: one share among perturbed weights. -/
theorem share_error {η w u S U n : ℚ} (hw : 0 ≤ w) (hS : 0 < S) (h1 : |u - w| ≤ η) (h2 : |U - S| ≤ n * η)
    (hn : n * η < S) :
    |u / U - w / S| ≤ η * (1 + n * (w / S)) / (S - n * η) := by
  have hU : S - n * η ≤ U := by have := abs_le.mp h2; linarith
  have hd : 0 < S - n * η := by linarith
  have hU0 : 0 < U := lt_of_lt_of_le hd hU
  have e : u / U - w / S = ((u - w) - (w / S) * (U - S)) / U := by field_simp; ring
  rw [e, abs_div, abs_of_pos hU0]
  have hs : 0 ≤ w / S := div_nonneg hw hS.le
  have hnum : |(u - w) - (w / S) * (U - S)| ≤ η * (1 + n * (w / S)) := by
    refine (abs_sub _ _).trans ?_
    rw [abs_mul, abs_of_nonneg hs]
    have := mul_le_mul_of_nonneg_left h2 hs
    nlinarith
  have h0 : 0 ≤ η * (1 + n * (w / S)) := (abs_nonneg _).trans hnum
  calc |(u - w) - (w / S) * (U - S)| / U ≤ η * (1 + n * (w / S)) / U := by gcongr
    _ ≤ η * (1 + n * (w / S)) / (S - n * η) := by gcongr

/-- The maximum score of each case, in order. -/
theorem grade_case_max (env : Validator.Env) (p : Grade.Problem) (hc : Grade.Compiles p) :
    List.Forall₂ (fun k (c : Grade.CaseResult) => c.maxScore = p.maxScore * (k.weight * Grade.factor p))
      (p.groups.flatMap Grade.Group.cases) (grade env p).cases := by
  obtain ⟨ys, -, hf, hm, hg, -⟩ := Grade.grade_ok env p hc.1 (Grade.compileAll_ok _ hc.2)
  have e1 : p.groups.flatMap Grade.Group.cases = (ys.flatMap Prod.snd).map Prod.fst := by
    have := congrArg (List.flatMap fun z : Grade.Group × List Grade.Case => z.2) hm
    simp only [List.flatMap_map] at this
    rw [← this, List.map_flatMap]
  have e2 : (grade env p).cases = (ys.flatMap Prod.snd).map (Grade.fin env p) := by
    unfold Grade.RunResult.cases
    rw [hg, List.flatMap_map, List.map_flatMap]
    rfl
  rw [e1, e2, List.forall₂_map_left_iff, List.forall₂_map_right_iff, List.forall₂_same]
  intro x hx
  obtain ⟨y, hy, hxy⟩ := List.mem_flatMap.mp hx
  have := hf y hy x hxy
  rw [(Grade.fin_spec env p x this).2.1, this.2.2.2.1]

/-- **C132** If the weights that reach `Grade` are each within `η` of the intended ones, and there are not so many
cases that the errors could add up to the total, then every case is worth its intended share of the maximum score up
to the stated error. -/
theorem C132_shares (env : Validator.Env) (p : Grade.Problem) (hc : Grade.Compiles p) (hmax : 0 ≤ p.maxScore)
    (ws : List ℚ) (hpos : ∀ w ∈ ws, 0 ≤ w) (η : ℚ)
    (hnear : Near η ws ((p.groups.flatMap Grade.Group.cases).map Grade.Case.weight))
    (hη : ws.length * η < ws.sum) (hS : 0 < ws.sum) :
    List.Forall₂ (fun w (c : Grade.CaseResult) =>
      |c.maxScore - p.maxScore * (w / ws.sum)|
        ≤ p.maxScore * (η * (1 + ws.length * (w / ws.sum)) / (ws.sum - ws.length * η)))
      ws (grade env p).cases := by
  have hsum := near_sum hnear
  have hU : 0 < ((p.groups.flatMap Grade.Group.cases).map Grade.Case.weight).sum := by
    have := abs_le.mp hsum; linarith
  have hfac : Grade.factor p = 1 / ((p.groups.flatMap Grade.Group.cases).map Grade.Case.weight).sum := by
    have := Grade.weightSum_eq p
    unfold Grade.weightSum at this
    unfold Grade.factor
    rw [← this, if_neg (by linarith)]
  have hmx := grade_case_max env p hc
  rw [hfac] at hmx
  generalize hks : p.groups.flatMap Grade.Group.cases = ks at *
  generalize (grade env p).cases = cs at *
  generalize hT : (ks.map Grade.Case.weight).sum = U at *
  generalize ws.sum = S at *
  generalize (ws.length : ℚ) = n at *
  unfold Near at hnear
  rw [List.forall₂_map_right_iff] at hnear
  clear hks hT hfac
  induction hnear generalizing cs with
  | nil => cases hmx; exact .nil
  | @cons w k ws ks h1 h2 ih =>
    cases hmx with
    | cons hm1 hm2 =>
      refine .cons ?_ (ih (fun w hw => hpos w (by simp [hw])) _ hm2)
      rw [hm1]
      have := share_error (hpos w (by simp)) hS h1 hsum hη
      have e : p.maxScore * (k.weight * (1 / U)) - p.maxScore * (w / S)
          = p.maxScore * (k.weight / U - w / S) := by ring
      rw [e, abs_mul, abs_of_nonneg hmax]
      exact mul_le_mul_of_nonneg_left this hmax

theorem round_small : (1 : ℚ) / 2 ^ (53 : ℕ) + 1 / 2 ^ (1075 : ℕ) ≤ 1 / 10000000 := by
  have h : (1 : ℚ) / 2 ^ (1075 : ℕ) ≤ 1 / 2 ^ (53 : ℕ) :=
    one_div_le_one_div_of_le (pow_pos (by norm_num) _) (pow_le_pow_right₀ (by norm_num) (by norm_num))
  have h2 : (1 : ℚ) / 2 ^ (53 : ℕ) ≤ 1 / 20000000 := by norm_num
  refine (add_le_add_right h _).trans ?_
  linarith

/-- A weight between 0 and 1 arrives within 1.1e-6. -/
theorem weight_trip (ofF : ℚ → ℚ) (hof : ∀ x, |ofF x - x| ≤ 1 / 1000000) (w : ℚ) (h0 : 0 ≤ w) (h1 : w ≤ 1) :
    |ofF (roundQ w) - w| ≤ 11 / 10000000 := by
  have h := C83_scores ofF hof w
  have hr := round_small
  rw [abs_of_nonneg h0] at h
  have h2 : w / 2 ^ (53 : ℕ) ≤ 1 / 2 ^ (53 : ℕ) := div_le_div_of_nonneg_right h1 (pow_pos (by norm_num) _).le
  unfold scoreTrip at h
  generalize (1 : ℚ) / 2 ^ (1075 : ℕ) = a at *
  generalize w / 2 ^ (53 : ℕ) = b at *
  generalize (1 : ℚ) / 2 ^ (53 : ℕ) = d at *
  linarith

/-- **C132** From an ephemeral request to the result: for a literal input of at most 900000 cases, if
`base.FloatToRational` is within 1e-6 of its argument (its documented contract), each case is worth its share of the
given weights, up to about a millionth of the maximum score (times `1 + n·share`). The hypothesis `hw` is what C131
says about the settings that reach the runner. -/
theorem C132_literal_shares {ι : Type} {R : Literal.Runtime} {T : Literal.Tools ι} {input : Literal.Input}
    {o : Literal.Output ι} (hm : Literal.IsMap input.cases) (h : Literal.newLiteralInput R T input = .ok o)
    (hn : input.cases.length ≤ 900000)
    (ofF : ℚ → ℚ) (hof : ∀ x, |ofF x - x| ≤ 1 / 1000000)
    (env : Validator.Env) (p : Grade.Problem) (hc : Grade.Compiles p) (hmax : 0 ≤ p.maxScore)
    (hw : (p.groups.flatMap Grade.Group.cases).map Grade.Case.weight
      = (o.settings.cases.flatMap Literal.Group.cases).map fun k => ofF (roundQ k.weight)) :
    ∃ l : List (Literal.Str × ℚ),
      l.Perm (input.cases.map fun e => (e.1, Literal.weightOf e / Literal.totalWeight input.cases)) ∧
      List.Forall₂ (fun s (c : Grade.CaseResult) =>
        |c.maxScore - p.maxScore * s.2| ≤ p.maxScore *
          (11 / 10000000 * (1 + l.length * s.2) / (1 - l.length * (11 / 10000000)))) l (grade env p).cases := by
  obtain ⟨-, -, -, -, hev, hnn, hone⟩ := Literal.C53_cases hm h
  generalize hks : o.settings.cases.flatMap Literal.Group.cases = ks at *
  have hnn' : ∀ k ∈ ks, 0 ≤ k.weight := by
    intro k hk
    rw [← hks] at hk
    obtain ⟨g, hg, hkg⟩ := List.mem_flatMap.mp hk
    exact hnn g hg k hkg
  have hle : ∀ k ∈ ks, k.weight ≤ 1 := by
    intro k hk
    rw [← hone]
    exact List.single_le_sum (by
      intro x hx
      obtain ⟨k', hk', rfl⟩ := List.mem_map.mp hx
      exact hnn' k' hk') _ (List.mem_map.mpr ⟨k, hk, rfl⟩)
  have hlen : ks.length = input.cases.length := by
    have := hev.length_eq; simpa using this
  have key := C132_shares env p hc hmax (ks.map Literal.CaseSettings.weight) (by
      intro w hw'
      obtain ⟨k, hk, rfl⟩ := List.mem_map.mp hw'
      exact hnn' k hk) (11 / 10000000) (by
      unfold Near
      rw [hw, List.forall₂_map_left_iff, List.forall₂_map_right_iff, List.forall₂_same]
      intro k hk
      exact weight_trip ofF hof _ (hnn' k hk) (hle k hk)) (by
      rw [hone, List.length_map, hlen]
      have : (input.cases.length : ℚ) ≤ 900000 := by exact_mod_cast hn
      linarith) (by rw [hone]; norm_num)
  refine ⟨_, hev, ?_⟩
  rw [hone, List.forall₂_map_left_iff, List.length_map] at key
  rw [List.forall₂_map_left_iff, List.length_map]
  simpa only [div_one] using key

/-! ## C133: missing weights -/

theorem raw_finite (ms : List (String × J)) (c r : RawCase) (hc : ∃ q, c.weight = .fin q)
    (h : fields RawCase.set c ms = some r) : ∃ q, r.weight = .fin q := by
  induction ms generalizing c with
  | nil => simp only [fields, Option.some.injEq] at h; rw [← h]; exact hc
  | cons m ms ih =>
    obtain ⟨k, j⟩ := m
    simp only [fields] at h
    cases hs : RawCase.set c (foldName k) j with
    | none => rw [hs] at h; simp at h
    | some c' =>
      rw [hs] at h
      refine ih c' ?_ h
      unfold RawCase.set at hs
      split at hs
      · simp only [Option.map_eq_some_iff] at hs
        obtain ⟨x, -, rfl⟩ := hs
        exact hc
      · split at hs
        · simp only [Option.map_eq_some_iff] at hs
          obtain ⟨x, hx, rfl⟩ := hs
          unfold decFlt at hx
          split at hx
          · obtain rfl := Option.some.inj hx; exact ⟨_, rfl⟩
          · split at hx
            · obtain rfl := Option.some.inj hx; exact ⟨_, rfl⟩
            · cases hx
          · obtain rfl := Option.some.inj hx; exact hc
          · cases hx
        · obtain rfl := Option.some.inj hs; exact hc

/-- **C133** A case that is read has no weight exactly if it was written as `null`. -/
theorem C133_no_weight_iff_null (ofF : ℚ → ℚ) (j : J) (c : Case) (h : decCase ofF j = some c) :
    c.weight = none ↔ j = .null := by
  unfold decCase at h
  split at h
  · obtain rfl := Option.some.inj h; simp
  · rename_i ms
    split at h
    · rename_i r hr
      obtain rfl := Option.some.inj h
      obtain ⟨q, hq⟩ := raw_finite ms {} r ⟨0, rfl⟩ hr
      simp [hq, ofScore]
    · cases h
  · cases h

theorem raw_weight (ms : List (String × J)) (c r : RawCase)
    (hm : ∀ m ∈ ms, SameName m.1 "Weight" → m.2 = .null) (h : fields RawCase.set c ms = some r) :
    r.weight = c.weight := by
  induction ms generalizing c with
  | nil => simp only [fields, Option.some.injEq] at h; rw [h]
  | cons m ms ih =>
    obtain ⟨k, j⟩ := m
    simp only [fields] at h
    cases hs : RawCase.set c (foldName k) j with
    | none => rw [hs] at h; simp at h
    | some c' =>
      rw [hs] at h
      rw [ih c' (fun m hm' => hm m (by simp [hm'])) h]
      unfold RawCase.set at hs
      split at hs
      · simp only [Option.map_eq_some_iff] at hs
        obtain ⟨x, -, rfl⟩ := hs
        rfl
      · split at hs
        · rename_i hk
          have : j = .null := hm (k, j) (by simp) ((foldName_iff _ _).mp (hk.trans (by decide +kernel)))
          subst this
          simp only [decFlt, Option.map_some, Option.some.injEq] at hs
          rw [← hs]
        · obtain rfl := Option.some.inj hs; rfl

/-- **C133** In the settings of a problem, a case without `Weight` (or with `null`) weighs what 0 is read as. -/
theorem C133_default_in_settings (ofF : ℚ → ℚ) (ms : List (String × J)) (c : Case)
    (h : decCase ofF (.struct ms) = some c) (hm : ∀ m ∈ ms, SameName m.1 "Weight" → m.2 = .null) :
    c.weight = some (ofF 0) := by
  simp only [decCase] at h
  split at h
  · rename_i r hr
    obtain rfl := Option.some.inj h
    simp [raw_weight ms {} r hm hr, ofScore]
  · cases h

theorem literal_weight (ms : List (String × J)) (c r : RawLiteral)
    (hm : ∀ m ∈ ms, SameName m.1 "weight" → m.2 = .null) (hc : c.weight = none)
    (h : fields RawLiteral.set c ms = some r) : r.weight = none := by
  induction ms generalizing c with
  | nil => simp only [fields, Option.some.injEq] at h; rw [← h]; exact hc
  | cons m ms ih =>
    obtain ⟨k, j⟩ := m
    simp only [fields] at h
    cases hs : RawLiteral.set c (foldName k) j with
    | none => rw [hs] at h; simp at h
    | some c' =>
      rw [hs] at h
      refine ih c' (fun m hm' => hm m (by simp [hm'])) ?_ h
      unfold RawLiteral.set at hs
      split at hs
      · simp only [Option.map_eq_some_iff] at hs
        obtain ⟨x, -, rfl⟩ := hs
        exact hc
      · split at hs
        · simp only [Option.map_eq_some_iff] at hs
          obtain ⟨x, -, rfl⟩ := hs
          exact hc
        · split at hs
          · rename_i hk
            have : j = .null := hm (k, j) (by simp) ((foldName_iff _ _).mp (hk.trans (by decide +kernel)))
            subst this
            simp only [decFltPtr, Option.map_some, Option.some.injEq] at hs
            rw [← hs]
          · obtain rfl := Option.some.inj hs; exact hc

/-- **C133** In a literal input, a case without `weight` (or with `null`) weighs 1; a case that is itself `null` is
read as no case at all. -/
theorem C133_default_in_literal (ofF : ℚ → ℚ) :
    (∀ (ms : List (String × J)) (c : Option LiteralCase), decLiteral ofF (.struct ms) = some c →
      (∀ m ∈ ms, SameName m.1 "weight" → m.2 = .null) → ∃ c', c = some c' ∧ c'.weight = some 1) ∧
    decLiteral ofF .null = some none := by
  refine ⟨?_, rfl⟩
  intro ms c h hm
  simp only [decLiteral] at h
  split at h
  · rename_i r hr
    obtain rfl := Option.some.inj h
    exact ⟨_, rfl, by simp [literal_weight ms {} r hm rfl hr]⟩
  · cases h

theorem addWeights_none (t : ℚ) (l : List (Option ℚ)) : addWeights t l = none ↔ none ∈ l := by
  induction l generalizing t with
  | nil => simp [addWeights]
  | cons w l ih =>
    cases w with
    | none => simp [addWeights]
    | some w => simp [addWeights, ih]

theorem addWeights_some (t : ℚ) (ws : List ℚ) : addWeights t (ws.map some) = some (t + ws.sum) := by
  induction ws generalizing t with
  | nil => simp [addWeights]
  | cons w ws ih => simp [addWeights, ih, add_assoc]

/-- **C133** `Grade` crashes before compiling anything exactly if some case has no weight; otherwise the factor makes
the weights add up to 1, if their sum is positive. -/
theorem C133_grade_crashes_iff {ι : Type} (p : Problem ι) :
    (weightFactor p = none ↔ ∃ c ∈ p.allCases, c.weight = none) ∧
    ∀ ws : List ℚ, p.allCases.map Case.weight = ws.map some →
      weightFactor p = some (if 0 < ws.sum then 1 / ws.sum else 1) ∧
      (0 < ws.sum → (ws.map fun w => w * (1 / ws.sum)).sum = 1) := by
  constructor
  · unfold weightFactor
    rw [Option.map_eq_none_iff, addWeights_none, List.mem_map]
  · intro ws hw
    constructor
    · unfold weightFactor
      rw [hw, addWeights_some, zero_add, Option.map_some]
      by_cases h : 0 < ws.sum
      · rw [if_pos h, if_neg (not_le.mpr h)]
      · rw [if_neg h, if_pos (not_lt.mp h)]
    · intro h
      rw [List.sum_map_mul_right, List.map_id', mul_one_div, div_self h.ne']

/-- **C133** Settings written by the grader never crash it. -/
theorem C133_written_settings_are_safe {ι : Type} (C : Codecs ι) (zero : ι) (ofF : ℚ → ℚ) (p q : Problem ι) (j : J)
    (h : encProblem C p = some j) (hd : decProblem C zero ofF j = some q) : weightFactor q ≠ none := by
  have hw := (C131_writable_iff C p).mp (by rw [h]; rfl)
  rw [problem_trip C zero ofF p j h] at hd
  obtain rfl := Option.some.inj hd
  intro hn
  obtain ⟨c, hc, hcn⟩ := (C133_grade_crashes_iff _).1.mp hn
  unfold Problem.allCases at hc
  simp only at hc
  cases hgs : p.cases with
  | none => rw [hgs] at hc; simp at hc
  | some gs =>
    rw [hgs] at hc
    simp only [Option.map_some, Option.getD_some, List.flatMap_map, List.mem_flatMap] at hc
    obtain ⟨g, hg, hcg⟩ := hc
    cases hcs : g.cases with
    | none => rw [hcs] at hcg; simp at hcg
    | some cs =>
      rw [hcs] at hcg
      simp only [Option.map_some, Option.getD_some, List.mem_map] at hcg
      obtain ⟨c', hc', rfl⟩ := hcg
      obtain ⟨w, hw', -⟩ := hw.1 gs hgs g hg cs hcs c' hc'
      simp [hw'] at hcn

/-! ## Concrete cases -/

/-- Encodings for the examples: numbers as such. -/
def plain : Codec Int where
  enc n := .int n
  dec _ j := match j with | .int n => some n | _ => none
  trip _ _ := rfl
  not_null _ := by simp

def plainCodecs : Codecs Int := ⟨plain, plain, plain⟩

/-- Two groups; weights 1/3, 1/3 and 1/3. -/
def thirds : Problem Int where
  cases := some [⟨some [⟨[0x61, 0x2E, 0x31], some (1 / 3)⟩, ⟨[0x61, 0x2E, 0x32], some (1 / 3)⟩], [0x61]⟩,
    ⟨some [⟨[0x62], some (1 / 3)⟩], [0x62]⟩]
  interactive := some 5
  limits := { timeLimit := 1000000000, memoryLimit := 33554432 }
  slow := true
  validator := { name := [0x74], tolerance := some (.fin (1 / 8)) }

/-- It can be written, is clean, and a third does not survive even if `FloatToRational` is exact. -/
example : thirds.Clean ∧ (encProblem plainCodecs thirds).isSome = true ∧
    (roundQ (1 / 3) ≠ 1 / 3) := by
  refine ⟨⟨?_, ⟨[0x74], by decide, by decide⟩, by intro l h; cases h⟩, by decide +kernel, by decide +kernel⟩
  intro gs h g hg
  obtain rfl := Option.some.inj h
  simp only [List.mem_cons, List.not_mem_nil, or_false] at hg
  rcases hg with rfl | rfl
  · refine ⟨⟨[0x61], by decide, by decide⟩, ?_⟩
    intro cs h c hc
    obtain rfl := Option.some.inj h
    simp only [List.mem_cons, List.not_mem_nil, or_false] at hc
    rcases hc with rfl | rfl
    · exact ⟨[0x61, 0x2E, 0x31], by decide, by decide⟩
    · exact ⟨[0x61, 0x2E, 0x32], by decide, by decide⟩
  · refine ⟨⟨[0x62], by decide, by decide⟩, ?_⟩
    intro cs h c hc
    obtain rfl := Option.some.inj h
    simp only [List.mem_cons, List.not_mem_nil, or_false] at hc
    subst hc
    exact ⟨[0x62], by decide, by decide⟩

/-- A `null` among the cases is read without complaint, and crashes `Grade`. -/
example : (decProblem plainCodecs 0 id (.struct [("Cases", .arr [.struct [("Cases", .arr [.null])]])])).map
    weightFactor = some none := by decide +kernel

/-- Weights 1, 2, 1 that arrive as 1, 2.000001, 1: C132 applies. -/
example : Near (1 / 1000000) [1, 2, 1] [1, 2000001 / 1000000, 1] ∧ (3 : ℚ) * (1 / 1000000) < 4 := by
  refine ⟨.cons (by norm_num) (.cons ?_ (.cons (by norm_num) .nil)), by norm_num⟩
  rw [abs_of_nonneg (by norm_num)]; norm_num

/-- **C132** A small enough share may vanish altogether: the contract of `FloatToRational` lets a weight of 1 among
two million be read as 0. -/
theorem C132_small_share_may_vanish :
    ∃ ofF : ℚ → ℚ, (∀ x, |ofF x - x| ≤ 1 / 1000000) ∧ ofF (roundQ (1 / 2097152)) = 0 := by
  refine ⟨fun x => if |x| ≤ 1 / 1000000 then 0 else x, ?_, ?_⟩
  · intro x
    by_cases h : |x| ≤ 1 / 1000000
    · simp only [if_pos h]; rw [zero_sub, abs_neg]; exact h
    · simp only [if_neg h]; norm_num
  · have : |roundQ (1 / 2097152)| ≤ 1 / 1000000 := by decide +kernel
    simp only [if_pos this]

/-- The problem that a runner makes of the sample of a literal input, three cases in two groups. -/
def sharesProblem : Grade.Problem :=
  { maxScore := 100, wallLimit := 60, validator := ⟨"token", none⟩
    compiles := [{ name := "Main", err := false, verdict := .OK }]
    groups :=
      [{ name := "a", cases := [Grade.sampleCase "a.1" (roundQ (1 / 7)) .OK (some [0x31]),
          Grade.sampleCase "a.2" (roundQ (4 / 7)) .OK (some [0x31])] },
       { name := "b", cases := [Grade.sampleCase "b" (roundQ (2 / 7)) .OK (some [0x31])] }] }

/-- `C132_literal_shares` applies to it: its cases are worth a seventh, four sevenths and two sevenths of the points, up to
the error stated there. -/
example : ∃ (o : Literal.Output Unit) (l : List (Literal.Str × ℚ)),
    Literal.newLiteralInput Literal.plainRuntime Literal.plainTools Literal.sampleInput = .ok o ∧
    l.Perm [(['b'], 2 / 7), (['a', '.', '2'], 4 / 7), (['a', '.', '1'], 1 / 7)] ∧
    List.Forall₂ (fun s (c : Grade.CaseResult) =>
      |c.maxScore - sharesProblem.maxScore * s.2| ≤ sharesProblem.maxScore *
        (11 / 10000000 * (1 + l.length * s.2) / (1 - l.length * (11 / 10000000)))) l
      (grade Validator.sampleEnv sharesProblem).cases := by
  have hm : Literal.IsMap Literal.sampleInput.cases := by decide +kernel
  have hev : (match Literal.newLiteralInput Literal.plainRuntime Literal.plainTools Literal.sampleInput with
    | .ok o => decide ((sharesProblem.groups.flatMap Grade.Group.cases).map Grade.Case.weight
        = (o.settings.cases.flatMap Literal.Group.cases).map fun k => id (roundQ k.weight))
    | _ => false) = true := by decide +kernel
  cases h : Literal.newLiteralInput Literal.plainRuntime Literal.plainTools Literal.sampleInput with
  | panic => rw [h] at hev; exact absurd hev (by simp)
  | err => rw [h] at hev; exact absurd hev (by simp)
  | ok o =>
    rw [h] at hev
    have hw := of_decide_eq_true hev
    obtain ⟨l, h1, h2⟩ := C132_literal_shares hm h (by decide) id (by intro x; simp) Validator.sampleEnv
      sharesProblem ⟨rfl, by
        intro b hb
        simp only [sharesProblem, List.mem_singleton] at hb
        subst hb; exact ⟨rfl, rfl⟩⟩ (by decide +kernel) hw
    refine ⟨o, l, rfl, ?_, h2⟩
    have e : Literal.sampleInput.cases.map (fun e => (e.1, Literal.weightOf e / Literal.totalWeight Literal.sampleInput.cases))
        = [(['b'], 2 / 7), (['a', '.', '2'], 4 / 7), (['a', '.', '1'], 1 / 7)] := by decide +kernel
    rwa [e] at h1

end Quark.Settings
