import Verif.Grade.Props2

/-!
# C135: doing better on a case never costs points
-/
namespace Quark.Grade
open Quark.MetaFile (Verdict)
open Quark.Validator (Env sampleEnv)

/-- The weights of a problem, group by group. -/
def weights (p : Problem) : List (List ℚ) := p.groups.map fun g => g.cases.map Case.weight

/-- What a group with these weights and case scores is worth, out of a total weight `W`: nothing if some case scored
nothing, else the weighted sum. -/
def groupWorth (W : ℚ) (ws qs : List ℚ) : ℚ :=
  if 0 ∈ qs then 0 else (List.zipWith (fun w q => q * (w / W)) ws qs).sum

/-! ## Lemmas -/

theorem group_worth (env : Env) (p : Problem) (hc : Compiles p) (hfs : FromSandbox p) (ho : Openable p)
    (hw : 0 < weightSum p) :
    List.Forall₂ (fun (ws : List ℚ) (g : GroupResult) =>
        g.score = groupWorth (weightSum p) ws (g.cases.map CaseResult.score) ∧
        ws.length = g.cases.length)
      (weights p) (grade env p).groups := by
  have h14 := C14_group_all_or_nothing env p hc hfs hw
  have hz := C14_zero_case_partial env p hc hfs ho hw
  have hshape := C13_shape env p hc
  obtain ⟨ys, -, hf, hm, hg, -⟩ := grade_ok env p hc.1 (compileAll_ok _ hc.2)
  have hver : ∀ g ∈ (grade env p).groups, ∀ c ∈ g.cases, c.verdict ∉ [Verdict.AC, .PA, .OK] → c.score = 0 := by
    rw [hg]
    intro g hgm c hcm hv
    obtain ⟨y, hy, rfl⟩ := List.mem_map.mp hgm
    obtain ⟨x, hx, rfl⟩ := List.mem_map.mp hcm
    obtain ⟨-, -, -, -, -, -, h7, h8⟩ := fin_spec env p x (hf y hy x hx)
    by_cases hxv : x.2.verdict = .OK
    · rcases h8 hxv with h | h | h | h
      · rw [h.1] at hv; simp at hv
      · rw [h.1] at hv; simp at hv
      · exact h.2
      · exact h.2.1
    · exact (h7 hxv).2
  have hlen : List.Forall₂ (fun (s : Group) (g : GroupResult) => s.cases.length = g.cases.length)
      p.groups (grade env p).groups := by
    have : (grade env p).groups.map (fun g => g.cases.length) = p.groups.map (fun g => g.cases.length) := by
      have := congrArg (List.map fun x : String × List String => x.2.length) hshape
      simpa only [List.map_map, Function.comp_def, List.length_map] using this
    have key : ∀ (a : List Group) (b : List GroupResult),
        b.map (fun g => g.cases.length) = a.map (fun g => g.cases.length) →
        List.Forall₂ (fun (s : Group) (g : GroupResult) => s.cases.length = g.cases.length) a b := by
      intro a
      induction a with
      | nil => intro b h; cases b with
        | nil => exact .nil
        | cons _ _ => simp at h
      | cons x a ih => intro b h; cases b with
        | nil => simp at h
        | cons y b =>
          simp only [List.map_cons, List.cons.injEq] at h
          exact .cons h.1.symm (ih b h.2)
    exact key _ _ this
  unfold weights
  rw [List.forall₂_map_left_iff]
  generalize (grade env p).groups = gs at *
  clear hshape hg hm
  generalize p.groups = ss at *
  induction h14 with
  | nil => exact .nil
  | @cons s g ss gs h1 h2 ih =>
    cases hlen with
    | cons l1 l2 =>
      refine .cons ⟨?_, by simpa using l1⟩ (ih (fun g hg => hz g (by simp [hg]))
        (fun g hg => hver g (by simp [hg])) l2)
      unfold groupWorth
      by_cases h0 : (0 : ℚ) ∈ g.cases.map CaseResult.score
      · rw [if_pos h0]
        obtain ⟨c, hcm, hc0⟩ := List.mem_map.mp h0
        exact (hz g (by simp) ⟨c, hcm, hc0⟩).1
      · rw [if_neg h0]
        have hall : ∀ c ∈ g.cases, c.verdict ∈ [Verdict.AC, .PA, .OK] := by
          intro c hcm
          by_contra hv
          exact h0 (List.mem_map.mpr ⟨c, hcm, hver g (by simp) c hcm hv⟩)
        rw [(h1.2 hall).1]
        rw [List.zipWith_map]

theorem zip_mono {W : ℚ} (hW : 0 < W) {ws qs qs' : List ℚ} (hw : ∀ w ∈ ws, 0 ≤ w)
    (h : List.Forall₂ (· ≤ ·) qs qs') :
    (List.zipWith (fun w q => q * (w / W)) ws qs).sum ≤ (List.zipWith (fun w q => q * (w / W)) ws qs').sum := by
  induction h generalizing ws with
  | nil => exact _root_.le_refl _
  | @cons a b l l' h1 h2 ih =>
    cases ws with
    | nil => simp
    | cons w ws =>
      simp only [List.zipWith_cons_cons, List.sum_cons]
      have := ih (ws := ws) (fun w hw' => hw w (by simp [hw']))
      have h3 : 0 ≤ w / W := div_nonneg (hw w (by simp)) hW.le
      have := mul_le_mul_of_nonneg_right h1 h3
      linarith

theorem zip_nonneg {W : ℚ} (hW : 0 < W) {ws qs : List ℚ} (hw : ∀ w ∈ ws, 0 ≤ w) (hq : ∀ q ∈ qs, 0 ≤ q) :
    0 ≤ (List.zipWith (fun w q => q * (w / W)) ws qs).sum := by
  induction ws generalizing qs with
  | nil => simp
  | cons w ws ih =>
    cases qs with
    | nil => simp
    | cons q qs =>
      simp only [List.zipWith_cons_cons, List.sum_cons]
      have h1 := ih (qs := qs) (fun w hw' => hw w (by simp [hw'])) (fun q hq' => hq q (by simp [hq']))
      have h2 := mul_nonneg (hq q (by simp)) (div_nonneg (hw w (by simp)) hW.le)
      linarith

theorem worth_mono {W : ℚ} (hW : 0 < W) {ws qs qs' : List ℚ} (hw : ∀ w ∈ ws, 0 ≤ w)
    (hq : ∀ q ∈ qs, 0 ≤ q) (h : List.Forall₂ (· ≤ ·) qs qs') :
    groupWorth W ws qs ≤ groupWorth W ws qs' := by
  unfold groupWorth
  have hq' : ∀ q ∈ qs', 0 ≤ q := by
    intro q hqm
    clear hw
    induction h with
    | nil => cases hqm
    | @cons a b l l' h1 h2 ih =>
      rcases List.mem_cons.mp hqm with rfl | hm
      · exact (hq a (by simp)).trans h1
      · exact ih (fun q hq' => hq q (by simp [hq'])) hm
  by_cases h0 : (0 : ℚ) ∈ qs
  · rw [if_pos h0]
    split
    · exact _root_.le_refl _
    · exact zip_nonneg hW hw hq'
  · have h0' : (0 : ℚ) ∉ qs' := by
      intro hm
      apply h0
      clear hq' hw
      induction h with
      | nil => cases hm
      | @cons a b l l' h1 h2 ih =>
        rcases List.mem_cons.mp hm with hb | hm
        · have : a = 0 := le_antisymm (hb ▸ h1) (hq a (by simp))
          simp [this]
        · exact List.mem_cons_of_mem _ (ih (fun q hq' => hq q (by simp [hq']))
            (fun h => h0 (List.mem_cons_of_mem _ h)) hm)
    rw [if_neg h0, if_neg h0']
    exact zip_mono hW hw h

/-! ## C135 -/

/-- **C135** The score of a run as a function of the weights and the case scores alone. -/
theorem C135_score_formula (env : Env) (p : Problem) (hc : Compiles p) (hfs : FromSandbox p) (ho : Openable p)
    (hw : 0 < weightSum p) :
    (grade env p).score = (List.zipWith (fun ws qs => groupWorth (weightSum p) ws qs) (weights p)
      ((grade env p).groups.map fun g => g.cases.map CaseResult.score)).sum := by
  rw [(C16_score_is_sum_of_groups env p hc hfs ho hw).1]
  have h := group_worth env p hc hfs ho hw
  generalize (grade env p).groups = gs at *
  generalize weights p = wss at *
  induction h with
  | nil => rfl
  | @cons ws g wss gs h1 h2 ih =>
    simp only [List.map_cons, List.sum_cons, List.zipWith_cons_cons]
    rw [ih, h1.1]

/-- **C135** Of two submissions to the same problem (the same weights), the one that scores at least as much on every
case scores at least as much overall; it gets at least as many points. -/
theorem C135_better_never_scores_less (env env' : Env) (p p' : Problem)
    (hc : Compiles p) (hfs : FromSandbox p) (ho : Openable p)
    (hc' : Compiles p') (hfs' : FromSandbox p') (ho' : Openable p')
    (hn : NonNegative p) (hw : 0 < weightSum p)
    (hsame : weights p' = weights p) (hmax : p'.maxScore = p.maxScore)
    (hbetter : List.Forall₂ (fun g g' : GroupResult =>
      List.Forall₂ (fun c c' : CaseResult => c.score ≤ c'.score) g.cases g'.cases)
      (grade env p).groups (grade env' p').groups) :
    (grade env p).score ≤ (grade env' p').score ∧ (grade env p).contestScore ≤ (grade env' p').contestScore := by
  have hW : weightSum p' = weightSum p := by
    have e : ∀ q : Problem, weightSum q = (weights q).flatten.sum := by
      intro q
      unfold weightSum weights
      rw [List.map_flatMap, ← List.flatMap_def]
    rw [e, e, hsame]
  have b := C12_score_bounds env p hn
  have hnw : ∀ ws ∈ weights p, ∀ w ∈ ws, 0 ≤ w := by
    intro ws hws w hwm
    obtain ⟨g, hg, rfl⟩ := List.mem_map.mp hws
    obtain ⟨c, hcm, rfl⟩ := List.mem_map.mp hwm
    exact hn.2 g hg c hcm
  have key : (grade env p).score ≤ (grade env' p').score := by
    rw [C135_score_formula env p hc hfs ho hw, C135_score_formula env' p' hc' hfs' ho' (by rw [hW]; exact hw),
      hW, hsame]
    have hq : ∀ g ∈ (grade env p).groups, ∀ c ∈ g.cases, 0 ≤ c.score := fun g hg c hcm =>
      ((b.2.2.2.2.2.2 g hg).2.2.2.2 c hcm).1
    generalize (grade env p).groups = gs at *
    generalize (grade env' p').groups = gs' at *
    generalize weights p = wss at *
    clear b hsame
    induction hbetter generalizing wss with
    | nil => exact _root_.le_refl _
    | @cons g g' gs gs' h1 h2 ih =>
      cases wss with
      | nil => simp
      | cons ws wss =>
        simp only [List.map_cons, List.zipWith_cons_cons, List.sum_cons]
        have i := ih (fun g hg => hq g (by simp [hg])) wss (fun ws hws => hnw ws (by simp [hws]))
        have j := worth_mono hw (hnw ws (by simp)) (qs := g.cases.map CaseResult.score)
          (qs' := g'.cases.map CaseResult.score)
          (by intro q hqm; obtain ⟨c, hcm, rfl⟩ := List.mem_map.mp hqm; exact hq g (by simp) c hcm)
          (by rw [List.forall₂_map_left_iff, List.forall₂_map_right_iff]; exact h1)
        linarith
  refine ⟨key, ?_⟩
  have hn' : NonNegative p' := by
    refine ⟨by rw [hmax]; exact hn.1, ?_⟩
    intro g hg c hcm
    have : g.cases.map Case.weight ∈ weights p := by
      rw [← hsame]; exact List.mem_map.mpr ⟨g, hg, rfl⟩
    exact hnw _ this _ (List.mem_map.mpr ⟨c, hcm, rfl⟩)
  have b' := C12_score_bounds env' p' hn'
  rw [b.2.2.2.1, b'.2.2.2.1, b.2.2.1, b'.2.2.1, hmax]
  exact mul_le_mul_of_nonneg_left key hn.1

/-- The sample run with its wrong case put right. -/
def better : Problem :=
  { sample with groups :=
      [{ name := "a", cases := [sampleCase "a.1" 1 .OK (some [0x31]), sampleCase "a.2" 2 .OK (some [0x31, 0x0A])] },
       { name := "b", cases := [sampleCase "b" 1 .OK (some [0x31])] }] }

theorem better_hyps : Compiles better ∧ FromSandbox better ∧ Openable better := by
  refine ⟨⟨rfl, ?_⟩, ?_, ?_⟩
  · intro b hb
    simp only [better, sample, List.mem_singleton] at hb
    subst hb; exact ⟨rfl, rfl⟩
  · intro g hg c hc r hr
    simp only [better, List.mem_cons, List.not_mem_nil, or_false] at hg
    rcases hg with rfl | rfl <;> simp only [List.mem_cons, List.not_mem_nil, or_false] at hc <;>
      [rcases hc with rfl | rfl; subst hc] <;> simp only [sampleCase, List.mem_singleton] at hr <;>
      subst hr <;> simp [SandboxVerdict, proc]
  · intro g hg c hc
    simp only [better, List.mem_cons, List.not_mem_nil, or_false] at hg
    rcases hg with rfl | rfl <;> simp only [List.mem_cons, List.not_mem_nil, or_false] at hc <;>
      [rcases hc with rfl | rfl; subst hc] <;>
      simp [sampleCase, better, sample]

/-- The hypotheses are met by the sample run and its improvement, and the points go up. -/
example : (grade sampleEnv sample).contestScore ≤ (grade sampleEnv better).contestScore :=
  (C135_better_never_scores_less sampleEnv sampleEnv sample better sample_hyps.1 sample_hyps.2.1 sample_hyps.2.2.1
    better_hyps.1 better_hyps.2.1 better_hyps.2.2 sample_hyps.2.2.2.1 sample_hyps.2.2.2.2 rfl rfl
    (by
      have h : ((grade sampleEnv sample).groups.map fun g => g.cases.map CaseResult.score) = [[1, 1], [0]] ∧
          ((grade sampleEnv better).groups.map fun g => g.cases.map CaseResult.score) = [[1, 1], [1]] := by
        decide +kernel
      have h2 : List.Forall₂ (List.Forall₂ fun a b : ℚ => a ≤ b)
          ((grade sampleEnv sample).groups.map fun g => g.cases.map CaseResult.score)
          ((grade sampleEnv better).groups.map fun g => g.cases.map CaseResult.score) := by
        rw [h.1, h.2]
        refine .cons (.cons ?_ (.cons ?_ .nil)) (.cons (.cons ?_ .nil) .nil) <;> norm_num
      rw [List.forall₂_map_left_iff, List.forall₂_map_right_iff] at h2
      refine h2.imp fun g g' hg => ?_
      rw [List.forall₂_map_left_iff, List.forall₂_map_right_iff] at hg
      exact hg)).2

example : (grade sampleEnv sample).contestScore = 75 ∧ (grade sampleEnv better).contestScore = 100 := by
  decide +kernel

end Quark.Grade
