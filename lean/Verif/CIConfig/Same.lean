import Verif.CIConfig.Props
import Mathlib.Data.List.Nodup

/-!
# C102: what a CI run grades the solutions with, compared with the settings of the problem
-/

namespace Quark.CIConfig

open Quark.Literal (Str Case Limits CustomValidator Validator Interactive Input ValidatorSettings Runtime Tools Output
  Settings Group CaseSettings languageFileExtension newLiteralInput IsMap BeforeDot Arranged toSettings weightOf
  totalWeight)

variable {ι : Type}

/-! ## Specification -/

/-- The groups, their cases and the weights the problem declares. -/
def ProblemSettings.outline (ps : ProblemSettings) : List (Str × List (Str × Option ℚ)) :=
  ps.groups.map fun g => (g.name, g.cases.map fun c => (c.name, c.weight))

/-- The groups, their cases and the weights a run is graded with. -/
def outline (s : Settings ι) : List (Str × List (Str × Option ℚ)) :=
  s.cases.map fun g => (g.name, g.cases.map fun c => (c.name, some c.weight))

/-- The problem's groups are what the names of the cases say: groups and cases in the order of their names, no group
empty, each case in the group its name starts with; and the weights add up to one. -/
structure Canonical (ps : ProblemSettings) : Prop where
  groupsSorted : (ps.groups.map ProblemGroup.name).Pairwise (· < ·)
  casesSorted : ∀ g ∈ ps.groups, (g.cases.map ProblemCase.name).Pairwise (· < ·)
  nonempty : ∀ g ∈ ps.groups, g.cases ≠ []
  inGroup : ∀ g ∈ ps.groups, ∀ c ∈ g.cases, BeforeDot g.name c.name
  sumOne : (ps.cases.map fun c => c.weight.getD 0).sum = 1

/-! ## The groups -/

theorem addAll_distinct (blob : Str → Option Str) (cs : List ProblemCase) (m : List (Str × Option Case))
    (h : (m.map Prod.fst ++ cs.map ProblemCase.name).Nodup) : addAll blob cs m = m ++ cs.map (readCase blob) := by
  induction cs generalizing m with
  | nil => simp [addAll]
  | cons c cs ih =>
    have hfresh : (readCase blob c).1 ∉ m.map Prod.fst := by
      intro hc
      rw [List.nodup_append] at h
      exact h.2.2 _ hc _ (List.mem_map.mpr ⟨c, by simp, rfl⟩) rfl
    show addAll blob cs (Literal.put m (readCase blob c).1 (readCase blob c).2) = _
    rw [Literal.put_fresh hfresh, ih, List.append_assoc]
    · rfl
    · rw [List.map_append, List.append_assoc]; exact h

theorem Canonical.names_nodup {ps : ProblemSettings} (h : Canonical ps) : (ps.cases.map ProblemCase.name).Nodup := by
  unfold ProblemSettings.cases
  rw [List.map_flatMap, List.nodup_flatMap]
  refine ⟨fun g hg => ?_, ?_⟩
  · exact (h.casesSorted g hg).imp fun hlt => ne_of_lt hlt
  · have := List.pairwise_map.mp h.groupsSorted
    refine List.Pairwise.imp_of_mem ?_ this
    intro a b ha hb hlt n hna hnb
    obtain ⟨c, hc, rfl⟩ := List.mem_map.mp hna
    obtain ⟨d, hd, hdc⟩ := List.mem_map.mp hnb
    have h1 := h.inGroup a ha c hc
    have h2 := h.inGroup b hb d hd
    rw [hdc] at h2
    exact absurd (Literal.C53_group_determined _ _ _ h1 h2) (ne_of_lt hlt)

theorem groupOf_of_beforeDot {g n : Str} (h : BeforeDot g n) : Literal.groupOf n = g :=
  Literal.C53_group_determined _ _ n (Literal.groupOf_beforeDot n) h

/-- The problem's groups, in the form they have in the settings. -/
def asGroups (ps : ProblemSettings) : List Group :=
  ps.groups.map fun g => { name := g.name, cases := g.cases.map fun c => { name := c.name, weight := c.weight.getD 0 } }

theorem asGroups_cases (ps : ProblemSettings) :
    (asGroups ps).flatMap Group.cases = ps.cases.map fun c => { name := c.name, weight := c.weight.getD 0 } := by
  unfold asGroups ProblemSettings.cases
  rw [List.flatMap_map, List.map_flatMap]

/-- C102: a run is graded with the problem's groups, cases and weights if and only if the problem's groups are the ones
the names of its cases suggest and its weights add up to one. -/
theorem C102_groups_iff {D : Decoders} {blob : Str → Option Str} {ts : TestsSettings} {ps : ProblemSettings}
    {cfg : Config} {R : Runtime} {T : Tools ι} {o : Output ι} (h : Declares D blob ts ps)
    (hc : createConfig D (.tree blob) = .done (some cfg)) (ho : newLiteralInput R T cfg.input = .ok o) :
    outline o.settings = ps.outline ↔ Canonical ps := by
  obtain ⟨-, -, -, -, rfl⟩ := done_cases h hc
  have hm : IsMap (configOf blob ts ps).input.cases := isMap_addAll _ _ (by simp [IsMap])
  constructor
  · intro he
    have hok := Literal.C53_cases hm ho
    have hmem : ∀ g ∈ ps.groups, ∃ g' ∈ o.settings.cases, g'.name = g.name ∧
        (g'.cases.map fun c => (c.name, some c.weight)) = g.cases.map fun c => (c.name, c.weight) := by
      intro g hg
      have : (g.name, g.cases.map fun c => (c.name, c.weight)) ∈ ps.outline := List.mem_map.mpr ⟨g, hg, rfl⟩
      rw [← he] at this
      obtain ⟨g', hg', h'⟩ := List.mem_map.mp this
      rw [Prod.mk.injEq] at h'
      exact ⟨g', hg', h'.1, h'.2⟩
    have hnames : ∀ g ∈ ps.groups, ∃ g' ∈ o.settings.cases, g'.name = g.name ∧
        g'.cases.map CaseSettings.name = g.cases.map ProblemCase.name := by
      intro g hg
      obtain ⟨g', hg', h1, h2⟩ := hmem g hg
      have := congrArg (List.map Prod.fst) h2
      rw [List.map_map, List.map_map] at this
      exact ⟨g', hg', h1, this⟩
    refine ⟨?_, ?_, ?_, ?_, ?_⟩
    · have := congrArg (List.map Prod.fst) he
      unfold outline ProblemSettings.outline at this
      rw [List.map_map, List.map_map] at this
      have h' : o.settings.cases.map Group.name = ps.groups.map ProblemGroup.name := this
      rw [← h']; exact hok.groupsSorted
    · intro g hg
      obtain ⟨g', hg', -, h2⟩ := hnames g hg
      rw [← h2]; exact hok.casesSorted g' hg'
    · intro g hg hnil
      obtain ⟨g', hg', -, h2⟩ := hnames g hg
      rw [hnil] at h2
      exact hok.nonempty g' hg' (List.map_eq_nil_iff.mp h2)
    · intro g hg c hcg
      obtain ⟨g', hg', h1, h2⟩ := hnames g hg
      have : c.name ∈ g'.cases.map CaseSettings.name := by rw [h2]; exact List.mem_map.mpr ⟨c, hcg, rfl⟩
      obtain ⟨c', hc', hn⟩ := List.mem_map.mp this
      rw [← h1, ← hn]; exact hok.inGroup g' hg' c' hc'
    · have := congrArg (fun l => ((l.flatMap Prod.snd).map fun c => c.2.getD 0).sum) he
      simp only [outline, ProblemSettings.outline, List.flatMap_map, List.map_flatMap, List.map_map] at this
      unfold ProblemSettings.cases
      rw [List.map_flatMap]
      refine Eq.trans this.symm ?_
      rw [← hok.sumOne, List.map_flatMap]
      rfl
  · intro hcan
    have hcases : (configOf blob ts ps).input.cases = ps.cases.map (readCase blob) := by
      show addAll blob ps.cases [] = _
      rw [addAll_distinct _ _ _ (by simpa using hcan.names_nodup)]; rfl
    obtain ⟨-, hg, -, ha, -⟩ := Literal.accepted hm ho
    rw [hcases] at hg ha
    have htot : totalWeight (ps.cases.map (readCase blob)) = 1 := by
      unfold totalWeight
      rw [List.map_map, ← hcan.sumOne]
      rfl
    rw [htot, List.map_map] at ha
    have hB : Arranged (asGroups ps)
        (ps.cases.map fun c => ({ name := c.name, weight := c.weight.getD 0 } : CaseSettings)) := by
      refine ⟨?_, ?_, ?_, ?_, ?_⟩
      · exact List.pairwise_map.mpr (List.pairwise_map.mp hcan.groupsSorted)
      · intro g hg
        obtain ⟨g', hg', rfl⟩ := List.mem_map.mp hg
        exact List.pairwise_map.mpr (List.pairwise_map.mp (hcan.casesSorted g' hg'))
      · intro g hg
        obtain ⟨g', hg', rfl⟩ := List.mem_map.mp hg
        simpa using hcan.nonempty g' hg'
      · intro g hg c hc
        obtain ⟨g', hg', rfl⟩ := List.mem_map.mp hg
        obtain ⟨c', hc', rfl⟩ := List.mem_map.mp hc
        exact groupOf_of_beforeDot (hcan.inGroup g' hg' c' hc')
      · rw [asGroups_cases]
    have heq : o.settings.cases = asGroups ps := by
      refine ha.unique hB (List.Perm.of_eq (List.map_congr_left fun c _ => ?_))
      simp [toSettings, weightOf, readCase]
    unfold outline ProblemSettings.outline
    rw [heq]
    unfold asGroups
    rw [List.map_map]
    refine List.map_congr_left fun g hgm => ?_
    simp only [Function.comp, List.map_map, Prod.mk.injEq, true_and]
    refine List.map_congr_left fun c hcm => ?_
    obtain ⟨x, w, hx, hw, -⟩ := hg (readCase blob c)
      (List.mem_map.mpr ⟨c, List.mem_flatMap.mpr ⟨g, hgm, hcm⟩, rfl⟩)
    simp only [readCase, Option.some.injEq] at hx
    subst hx
    simp only at hw
    simp [hw]

/-! ## The limits -/

/-- Each of the limits of a problem is at most that of a run of the CI: 10 s of time, 10 s of total wall time, no extra
wall time, 1.5 GiB of memory and 2 MiB of output. -/
def WithinCaps (l : Limits) : Prop :=
  l.timeLimit ≤ 10000000000 ∧ l.overallWallTimeLimit ≤ 10000000000 ∧ l.extraWallTime ≤ 0 ∧
    l.memoryLimit ≤ 1610612736 ∧ l.outputLimit ≤ 2097152

/-- C102: a run is graded with the problem's limits if and only if they are within the CI's. -/
theorem C102_limits_iff {D : Decoders} {blob : Str → Option Str} {ts : TestsSettings} {ps : ProblemSettings}
    {cfg : Config} {R : Runtime} {T : Tools ι} {o : Output ι} (h : Declares D blob ts ps)
    (hc : createConfig D (.tree blob) = .done (some cfg)) (ho : newLiteralInput R T cfg.input = .ok o) :
    o.settings.limits = ps.limits ↔ WithinCaps ps.limits := by
  obtain ⟨-, -, -, -, rfl⟩ := done_cases h hc
  have hm : IsMap (configOf blob ts ps).input.cases := isMap_addAll _ _ (by simp [IsMap])
  have hl := Literal.C54_limits_clamped hm ho
  have hlim : (configOf blob ts ps).input.limits = some ps.limits := rfl
  simp only [hlim, List.mem_cons, List.not_mem_nil, or_false, forall_eq_or_imp, forall_eq, Option.some.injEq,
    forall_eq', reduceCtorEq, false_imp_iff, and_true] at hl
  obtain ⟨h1, h2, h3, h4, h5⟩ := hl
  unfold WithinCaps
  simp only [Literal.literalCaps] at h1 h2 h3 h4 h5
  constructor
  · intro he
    rw [he] at h1 h2 h3 h4 h5
    exact ⟨h1.1, h2.1, h3.1, h4.1, h5.1⟩
  · rintro ⟨g1, g2, g3, g4, g5⟩
    have e1 := h1.2.2.1 g1
    have e2 := h2.2.2.1 g2
    have e3 := h3.2.2.1 g3
    have e4 := h4.2.2.1 g4
    have e5 := h5.2.2.1 g5
    revert e1 e2 e3 e4 e5
    cases o.settings.limits
    cases ps.limits
    simp only
    rintro rfl rfl rfl rfl rfl
    rfl

/-! ## The validator -/

theorem validatorStep_name {w : Validator} {vs : ValidatorSettings} {f : List (Str × Str)} {v' : Option Validator}
    (h : Literal.validatorStep (some w) = .ok (vs, f, v')) : vs.name = w.name := by
  simp only [Literal.validatorStep, Option.getD_some] at h
  split_ifs at h
  · split at h
    · cases h
    · cases h; rfl
  · cases h; rfl
  · cases h; rfl

/-- C102: outputs are judged by the problem's validator: the same kind; the same program for a custom one, and the same
tolerance for a numeric one, 10⁻⁶ if the problem gives none. The problem's limits for a custom validator are dropped. -/
theorem C102_validator {D : Decoders} {blob : Str → Option Str} {ts : TestsSettings} {ps : ProblemSettings}
    {cfg : Config} {R : Runtime} {T : Tools ι} {o : Output ι} (h : Declares D blob ts ps)
    (hc : createConfig D (.tree blob) = .done (some cfg)) (ho : newLiteralInput R T cfg.input = .ok o) :
    o.settings.validator.name = ps.validator.name ∧
    (ps.validator.name = "custom".toList → ∃ lang source, ps.validator.lang = some lang ∧
      o.settings.validator.lang = some lang ∧ blob ("validator.".toList ++ lang) = some source ∧
      ("validator.".toList ++ lang, source) ∈ o.archive) ∧
    (ps.validator.name = "token-numeric".toList →
      o.settings.validator.tolerance = some (ps.validator.tolerance.getD (1 / 1000000))) ∧
    o.settings.validator.limits = none := by
  obtain ⟨-, hv, -, -, rfl⟩ := done_cases h hc
  have hm : IsMap (configOf blob ts ps).input.cases := isMap_addAll _ _ (by simp [IsMap])
  refine ⟨?_, ?_, ?_, Literal.C54_validator_limits_ignored hm ho⟩
  · obtain ⟨-, -, -, -, ⟨vs, v', hvs, e, -⟩, -⟩ := Literal.accepted hm ho
    rw [e]
    exact validatorStep_name hvs
  · intro hcust
    obtain ⟨lang, hl, hb⟩ := hv hcust
    obtain ⟨src, hsrc⟩ := Option.ne_none_iff_exists'.mp hb
    have hcust' : ps.validator.name = sCustom := hcust
    have hsrc' : blob (sValidator ++ lang) = some src := hsrc
    have hval : (configOf blob ts ps).input.validator = some
        { name := ps.validator.name, tolerance := ps.validator.tolerance
          custom := some { source := src, language := lang, limits := ps.validator.limits } } := by
      simp [configOf, hcust', hl, hsrc']
    refine ⟨lang, src, hl, ?_, hsrc, ?_⟩
    · obtain ⟨-, -, -, -, ⟨vs, v', hvs, e, -⟩, -⟩ := Literal.accepted hm ho
      rw [e]
      rw [hval] at hvs
      simp only [Literal.validatorStep, Option.getD_some] at hvs
      rw [if_pos (show ps.validator.name = Literal.sCustom from hcust)] at hvs
      simp only [Literal.Res.ok.injEq, Prod.mk.injEq] at hvs
      rw [← hvs.1]
    · have := (Literal.C52_archive hm ho)
      obtain ⟨-, hmem⟩ := this
      rw [hmem]
      exact .inr (.inr (.inl ⟨_, _, hval, hcust, rfl, rfl, rfl⟩))
  · intro hnum
    have hne : ¬ ps.validator.name = sCustom := by rw [hnum]; decide
    obtain ⟨-, -, -, -, ⟨vs, v', hvs, e, -⟩, -⟩ := Literal.accepted hm ho
    rw [e]
    simp only [configOf, Literal.validatorStep, Option.getD_some, hnum] at hvs
    rw [if_neg (show ¬ "token-numeric".toList = Literal.sCustom by decide),
      if_neg (show ¬ ("token-numeric".toList = Literal.sToken ∨ "token-numeric".toList = Literal.sTokenCaseless ∨
        "token-numeric".toList = Literal.sLiteral) by decide),
      if_pos (show "token-numeric".toList = Literal.sTokenNumeric by decide)] at hvs
    simp only [Literal.Res.ok.injEq, Prod.mk.injEq] at hvs
    rw [← hvs.1]
    rfl

end Quark.CIConfig
