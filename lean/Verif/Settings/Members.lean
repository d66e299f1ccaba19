import Verif.Settings.Shares

/-! Property C151: settings written by hand are read member by member. -/
namespace Quark.Settings
open Quark.Float (F64 fl roundQ)
open Quark.Wire

/-! ### Specification -/

/-- What the members `ms` of an object say about the field called `name`, whose value would be `zero`: if no member has
that name the field is `zero`, and otherwise it is what `read` makes of the member's value. -/
def Says {β : Type} (ms : List (String × J)) (name : String) (read : β → J → Option β) (zero x : β) : Prop :=
  ((∀ m ∈ ms, ¬ SameName m.1 name) → x = zero) ∧
  ∀ m ∈ ms, SameName m.1 name → read zero m.2 = some x

/-- No two members have the same name. -/
def Distinct (ms : List (String × J)) : Prop := ms.Pairwise fun a b => ¬ SameName a.1 b.1

/-! ### Proofs -/

/-- `Says` by folded names. -/
def SaysF {β : Type} (ms : List (String × J)) (key : String) (read : β → J → Option β) (zero x : β) : Prop :=
  ((∀ m ∈ ms, foldName m.1 ≠ key) → x = zero) ∧
  ∀ m ∈ ms, foldName m.1 = key → read zero m.2 = some x

theorem says_iff {β : Type} (ms : List (String × J)) (name : String) (read : β → J → Option β) (zero x : β) :
    Says ms name read zero x ↔ SaysF ms (foldName name) read zero x := by
  simp only [Says, SaysF, foldName_iff, ne_eq]

theorem saysF_nil {β : Type} (key : String) (read : β → J → Option β) (zero x : β) :
    SaysF [] key read zero x ↔ x = zero := by simp [SaysF]

theorem saysF_miss {β : Type} (k : String) (j : J) (ms : List (String × J)) (key : String) (read : β → J → Option β)
    (zero x : β) (h : foldName k ≠ key) : SaysF ((k, j) :: ms) key read zero x ↔ SaysF ms key read zero x := by
  simp [SaysF, h]

theorem saysF_absent {β : Type} (ms : List (String × J)) (key : String) (read : β → J → Option β)
    (zero x : β) (h : ∀ m ∈ ms, foldName m.1 ≠ key) : SaysF ms key read zero x ↔ x = zero := by
  constructor
  · intro hs; exact hs.1 h
  · rintro rfl; exact ⟨fun _ => rfl, fun m hm he => absurd he (h m hm)⟩

theorem saysF_hit {β : Type} (k : String) (j : J) (ms : List (String × J)) (key : String) (read : β → J → Option β)
    (zero x : β) (h : foldName k = key) (hms : ∀ m ∈ ms, foldName m.1 ≠ key) :
    SaysF ((k, j) :: ms) key read zero x ↔ read zero j = some x := by
  constructor
  · intro hs; exact hs.2 (k, j) (by simp) h
  · intro hr
    refine ⟨fun ha => absurd h (ha (k, j) (by simp)), ?_⟩
    intro m hm he
    rcases List.mem_cons.mp hm with rfl | hm
    · exact hr
    · exact absurd he (hms m hm)

theorem distinct_cons {k : String} {j : J} {ms : List (String × J)} (h : Distinct ((k, j) :: ms)) :
    (∀ m ∈ ms, foldName m.1 ≠ foldName k) ∧ Distinct ms := by
  obtain ⟨h1, h2⟩ := List.pairwise_cons.mp h
  exact ⟨fun m hm he => h1 m hm ((foldName_iff _ _).mp he.symm), h2⟩

variable {ι : Type}

theorem limits_fields (C : Codecs ι) (ms : List (String × J)) : ∀ (a r : Limits), Distinct ms →
    (fields (Limits.set C) a ms = some r ↔
      SaysF ms "extrawalltime" C.duration.dec a.extraWallTime r.extraWallTime ∧
      SaysF ms "memorylimit" C.byte.dec a.memoryLimit r.memoryLimit ∧
      SaysF ms "outputlimit" C.byte.dec a.outputLimit r.outputLimit ∧
      SaysF ms "overallwalltimelimit" C.duration.dec a.overallWallTimeLimit r.overallWallTimeLimit ∧
      SaysF ms "timelimit" C.duration.dec a.timeLimit r.timeLimit) := by
  induction ms with
  | nil =>
    intro a r _
    simp only [fields, Option.some.injEq, saysF_nil]
    cases a; cases r; simp [eq_comm]
  | cons m ms ih =>
    obtain ⟨k, j⟩ := m
    intro a r hd
    obtain ⟨hk, hd⟩ := distinct_cons hd
    simp only [fields]
    by_cases h0 : foldName k = "extrawalltime"
    · rw [saysF_hit _ _ _ _ _ _ _ h0 (h0 ▸ hk)]
      rw [saysF_miss _ _ _ "memorylimit" _ _ _ (by rw [h0]; decide)]
      rw [saysF_miss _ _ _ "outputlimit" _ _ _ (by rw [h0]; decide)]
      rw [saysF_miss _ _ _ "overallwalltimelimit" _ _ _ (by rw [h0]; decide)]
      rw [saysF_miss _ _ _ "timelimit" _ _ _ (by rw [h0]; decide)]
      simp only [Limits.set, h0, String.reduceEq, if_true, if_false]
      generalize hg : C.duration.dec a.extraWallTime j = o
      cases o with
      | none => simp
      | some x =>
        simp only [Option.map_some, ih _ _ hd, Option.some.injEq]
        rw [saysF_absent _ "extrawalltime" _ _ _ (h0 ▸ hk)]
        simp [eq_comm]
    by_cases h1 : foldName k = "memorylimit"
    · rw [saysF_hit _ _ _ _ _ _ _ h1 (h1 ▸ hk)]
      rw [saysF_miss _ _ _ "extrawalltime" _ _ _ (by rw [h1]; decide)]
      rw [saysF_miss _ _ _ "outputlimit" _ _ _ (by rw [h1]; decide)]
      rw [saysF_miss _ _ _ "overallwalltimelimit" _ _ _ (by rw [h1]; decide)]
      rw [saysF_miss _ _ _ "timelimit" _ _ _ (by rw [h1]; decide)]
      simp only [Limits.set, h1, String.reduceEq, if_true, if_false]
      generalize hg : C.byte.dec a.memoryLimit j = o
      cases o with
      | none => simp
      | some x =>
        simp only [Option.map_some, ih _ _ hd, Option.some.injEq]
        rw [saysF_absent _ "memorylimit" _ _ _ (h1 ▸ hk)]
        simp [eq_comm]
    by_cases h2 : foldName k = "outputlimit"
    · rw [saysF_hit _ _ _ _ _ _ _ h2 (h2 ▸ hk)]
      rw [saysF_miss _ _ _ "extrawalltime" _ _ _ (by rw [h2]; decide)]
      rw [saysF_miss _ _ _ "memorylimit" _ _ _ (by rw [h2]; decide)]
      rw [saysF_miss _ _ _ "overallwalltimelimit" _ _ _ (by rw [h2]; decide)]
      rw [saysF_miss _ _ _ "timelimit" _ _ _ (by rw [h2]; decide)]
      simp only [Limits.set, h2, String.reduceEq, if_true, if_false]
      generalize hg : C.byte.dec a.outputLimit j = o
      cases o with
      | none => simp
      | some x =>
        simp only [Option.map_some, ih _ _ hd, Option.some.injEq]
        rw [saysF_absent _ "outputlimit" _ _ _ (h2 ▸ hk)]
        simp [eq_comm]
    by_cases h3 : foldName k = "overallwalltimelimit"
    · rw [saysF_hit _ _ _ _ _ _ _ h3 (h3 ▸ hk)]
      rw [saysF_miss _ _ _ "extrawalltime" _ _ _ (by rw [h3]; decide)]
      rw [saysF_miss _ _ _ "memorylimit" _ _ _ (by rw [h3]; decide)]
      rw [saysF_miss _ _ _ "outputlimit" _ _ _ (by rw [h3]; decide)]
      rw [saysF_miss _ _ _ "timelimit" _ _ _ (by rw [h3]; decide)]
      simp only [Limits.set, h3, String.reduceEq, if_true, if_false]
      generalize hg : C.duration.dec a.overallWallTimeLimit j = o
      cases o with
      | none => simp
      | some x =>
        simp only [Option.map_some, ih _ _ hd, Option.some.injEq]
        rw [saysF_absent _ "overallwalltimelimit" _ _ _ (h3 ▸ hk)]
        simp [eq_comm]
    by_cases h4 : foldName k = "timelimit"
    · rw [saysF_hit _ _ _ _ _ _ _ h4 (h4 ▸ hk)]
      rw [saysF_miss _ _ _ "extrawalltime" _ _ _ (by rw [h4]; decide)]
      rw [saysF_miss _ _ _ "memorylimit" _ _ _ (by rw [h4]; decide)]
      rw [saysF_miss _ _ _ "outputlimit" _ _ _ (by rw [h4]; decide)]
      rw [saysF_miss _ _ _ "overallwalltimelimit" _ _ _ (by rw [h4]; decide)]
      simp only [Limits.set, h4, String.reduceEq, if_true, if_false]
      generalize hg : C.duration.dec a.timeLimit j = o
      cases o with
      | none => simp
      | some x =>
        simp only [Option.map_some, ih _ _ hd, Option.some.injEq]
        rw [saysF_absent _ "timelimit" _ _ _ (h4 ▸ hk)]
        simp [eq_comm]
    rw [saysF_miss _ _ _ "extrawalltime" _ _ _ h0]
    rw [saysF_miss _ _ _ "memorylimit" _ _ _ h1]
    rw [saysF_miss _ _ _ "outputlimit" _ _ _ h2]
    rw [saysF_miss _ _ _ "overallwalltimelimit" _ _ _ h3]
    rw [saysF_miss _ _ _ "timelimit" _ _ _ h4]
    simp only [Limits.set, h0, h1, h2, h3, h4, if_false, ih _ _ hd]

theorem validator_fields (C : Codecs ι) (ms : List (String × J)) : ∀ (a r : Validator), Distinct ms →
    (fields (Validator.set C) a ms = some r ↔
      SaysF ms "lang" (fun _ => decPtr) a.lang r.lang ∧
      SaysF ms "name" decStr a.name r.name ∧
      SaysF ms "tolerance" (fun _ => decFltPtr) a.tolerance r.tolerance ∧
      SaysF ms "limits" (fun _ => decLimitsPtr C) a.limits r.limits) := by
  induction ms with
  | nil =>
    intro a r _
    simp only [fields, Option.some.injEq, saysF_nil]
    cases a; cases r; simp [eq_comm]
  | cons m ms ih =>
    obtain ⟨k, j⟩ := m
    intro a r hd
    obtain ⟨hk, hd⟩ := distinct_cons hd
    simp only [fields]
    by_cases h0 : foldName k = "lang"
    · rw [saysF_hit _ _ _ _ _ _ _ h0 (h0 ▸ hk)]
      rw [saysF_miss _ _ _ "name" _ _ _ (by rw [h0]; decide)]
      rw [saysF_miss _ _ _ "tolerance" _ _ _ (by rw [h0]; decide)]
      rw [saysF_miss _ _ _ "limits" _ _ _ (by rw [h0]; decide)]
      simp only [Validator.set, h0, String.reduceEq, if_true, if_false]
      generalize hg : (decPtr) j = o
      cases o with
      | none => simp
      | some x =>
        simp only [Option.map_some, ih _ _ hd, Option.some.injEq]
        rw [saysF_absent _ "lang" _ _ _ (h0 ▸ hk)]
        simp [eq_comm]
    by_cases h1 : foldName k = "name"
    · rw [saysF_hit _ _ _ _ _ _ _ h1 (h1 ▸ hk)]
      rw [saysF_miss _ _ _ "lang" _ _ _ (by rw [h1]; decide)]
      rw [saysF_miss _ _ _ "tolerance" _ _ _ (by rw [h1]; decide)]
      rw [saysF_miss _ _ _ "limits" _ _ _ (by rw [h1]; decide)]
      simp only [Validator.set, h1, String.reduceEq, if_true, if_false]
      generalize hg : decStr a.name j = o
      cases o with
      | none => simp
      | some x =>
        simp only [Option.map_some, ih _ _ hd, Option.some.injEq]
        rw [saysF_absent _ "name" _ _ _ (h1 ▸ hk)]
        simp [eq_comm]
    by_cases h2 : foldName k = "tolerance"
    · rw [saysF_hit _ _ _ _ _ _ _ h2 (h2 ▸ hk)]
      rw [saysF_miss _ _ _ "lang" _ _ _ (by rw [h2]; decide)]
      rw [saysF_miss _ _ _ "name" _ _ _ (by rw [h2]; decide)]
      rw [saysF_miss _ _ _ "limits" _ _ _ (by rw [h2]; decide)]
      simp only [Validator.set, h2, String.reduceEq, if_true, if_false]
      generalize hg : (decFltPtr) j = o
      cases o with
      | none => simp
      | some x =>
        simp only [Option.map_some, ih _ _ hd, Option.some.injEq]
        rw [saysF_absent _ "tolerance" _ _ _ (h2 ▸ hk)]
        simp [eq_comm]
    by_cases h3 : foldName k = "limits"
    · rw [saysF_hit _ _ _ _ _ _ _ h3 (h3 ▸ hk)]
      rw [saysF_miss _ _ _ "lang" _ _ _ (by rw [h3]; decide)]
      rw [saysF_miss _ _ _ "name" _ _ _ (by rw [h3]; decide)]
      rw [saysF_miss _ _ _ "tolerance" _ _ _ (by rw [h3]; decide)]
      simp only [Validator.set, h3, String.reduceEq, if_true, if_false]
      generalize hg : (decLimitsPtr C) j = o
      cases o with
      | none => simp
      | some x =>
        simp only [Option.map_some, ih _ _ hd, Option.some.injEq]
        rw [saysF_absent _ "limits" _ _ _ (h3 ▸ hk)]
        simp [eq_comm]
    rw [saysF_miss _ _ _ "lang" _ _ _ h0]
    rw [saysF_miss _ _ _ "name" _ _ _ h1]
    rw [saysF_miss _ _ _ "tolerance" _ _ _ h2]
    rw [saysF_miss _ _ _ "limits" _ _ _ h3]
    simp only [Validator.set, h0, h1, h2, h3, if_false, ih _ _ hd]

theorem case_fields (ms : List (String × J)) : ∀ (a r : RawCase), Distinct ms →
    (fields RawCase.set a ms = some r ↔
      SaysF ms "name" decStr a.name r.name ∧
      SaysF ms "weight" decFlt a.weight r.weight) := by
  induction ms with
  | nil =>
    intro a r _
    simp only [fields, Option.some.injEq, saysF_nil]
    cases a; cases r; simp [eq_comm]
  | cons m ms ih =>
    obtain ⟨k, j⟩ := m
    intro a r hd
    obtain ⟨hk, hd⟩ := distinct_cons hd
    simp only [fields]
    by_cases h0 : foldName k = "name"
    · rw [saysF_hit _ _ _ _ _ _ _ h0 (h0 ▸ hk)]
      rw [saysF_miss _ _ _ "weight" _ _ _ (by rw [h0]; decide)]
      simp only [RawCase.set, h0, String.reduceEq, if_true, if_false]
      generalize hg : decStr a.name j = o
      cases o with
      | none => simp
      | some x =>
        simp only [Option.map_some, ih _ _ hd, Option.some.injEq]
        rw [saysF_absent _ "name" _ _ _ (h0 ▸ hk)]
        simp [eq_comm]
    by_cases h1 : foldName k = "weight"
    · rw [saysF_hit _ _ _ _ _ _ _ h1 (h1 ▸ hk)]
      rw [saysF_miss _ _ _ "name" _ _ _ (by rw [h1]; decide)]
      simp only [RawCase.set, h1, String.reduceEq, if_true, if_false]
      generalize hg : decFlt a.weight j = o
      cases o with
      | none => simp
      | some x =>
        simp only [Option.map_some, ih _ _ hd, Option.some.injEq]
        rw [saysF_absent _ "weight" _ _ _ (h1 ▸ hk)]
        simp [eq_comm]
    rw [saysF_miss _ _ _ "name" _ _ _ h0]
    rw [saysF_miss _ _ _ "weight" _ _ _ h1]
    simp only [RawCase.set, h0, h1, if_false, ih _ _ hd]

theorem group_fields (ofF : ℚ → ℚ) (ms : List (String × J)) : ∀ (a r : Group), Distinct ms →
    (fields (Group.set ofF) a ms = some r ↔
      SaysF ms "cases" (fun _ => decSlice (decCase ofF)) a.cases r.cases ∧
      SaysF ms "name" decStr a.name r.name) := by
  induction ms with
  | nil =>
    intro a r _
    simp only [fields, Option.some.injEq, saysF_nil]
    cases a; cases r; simp [eq_comm]
  | cons m ms ih =>
    obtain ⟨k, j⟩ := m
    intro a r hd
    obtain ⟨hk, hd⟩ := distinct_cons hd
    simp only [fields]
    by_cases h0 : foldName k = "cases"
    · rw [saysF_hit _ _ _ _ _ _ _ h0 (h0 ▸ hk)]
      rw [saysF_miss _ _ _ "name" _ _ _ (by rw [h0]; decide)]
      simp only [Group.set, h0, String.reduceEq, if_true, if_false]
      generalize hg : (decSlice (decCase ofF)) j = o
      cases o with
      | none => simp
      | some x =>
        simp only [Option.map_some, ih _ _ hd, Option.some.injEq]
        rw [saysF_absent _ "cases" _ _ _ (h0 ▸ hk)]
        simp [eq_comm]
    by_cases h1 : foldName k = "name"
    · rw [saysF_hit _ _ _ _ _ _ _ h1 (h1 ▸ hk)]
      rw [saysF_miss _ _ _ "cases" _ _ _ (by rw [h1]; decide)]
      simp only [Group.set, h1, String.reduceEq, if_true, if_false]
      generalize hg : decStr a.name j = o
      cases o with
      | none => simp
      | some x =>
        simp only [Option.map_some, ih _ _ hd, Option.some.injEq]
        rw [saysF_absent _ "name" _ _ _ (h1 ▸ hk)]
        simp [eq_comm]
    rw [saysF_miss _ _ _ "cases" _ _ _ h0]
    rw [saysF_miss _ _ _ "name" _ _ _ h1]
    simp only [Group.set, h0, h1, if_false, ih _ _ hd]

theorem problem_fields (C : Codecs ι) (zero : ι) (ofF : ℚ → ℚ) (ms : List (String × J)) : ∀ (a r : Problem ι), Distinct ms →
    (fields (Problem.set C zero ofF) a ms = some r ↔
      SaysF ms "cases" (fun _ => decSlice (decGroup ofF)) a.cases r.cases ∧
      SaysF ms "interactive" (fun _ => decInteractive C zero) a.interactive r.interactive ∧
      SaysF ms "limits" (decLimits C) a.limits r.limits ∧
      SaysF ms "slow" decBool a.slow r.slow ∧
      SaysF ms "validator" (decValidator C) a.validator r.validator) := by
  induction ms with
  | nil =>
    intro a r _
    simp only [fields, Option.some.injEq, saysF_nil]
    cases a; cases r; simp [eq_comm]
  | cons m ms ih =>
    obtain ⟨k, j⟩ := m
    intro a r hd
    obtain ⟨hk, hd⟩ := distinct_cons hd
    simp only [fields]
    by_cases h0 : foldName k = "cases"
    · rw [saysF_hit _ _ _ _ _ _ _ h0 (h0 ▸ hk)]
      rw [saysF_miss _ _ _ "interactive" _ _ _ (by rw [h0]; decide)]
      rw [saysF_miss _ _ _ "limits" _ _ _ (by rw [h0]; decide)]
      rw [saysF_miss _ _ _ "slow" _ _ _ (by rw [h0]; decide)]
      rw [saysF_miss _ _ _ "validator" _ _ _ (by rw [h0]; decide)]
      simp only [Problem.set, h0, String.reduceEq, if_true, if_false]
      generalize hg : (decSlice (decGroup ofF)) j = o
      cases o with
      | none => simp
      | some x =>
        simp only [Option.map_some, ih _ _ hd, Option.some.injEq]
        rw [saysF_absent _ "cases" _ _ _ (h0 ▸ hk)]
        simp [eq_comm]
    by_cases h1 : foldName k = "interactive"
    · rw [saysF_hit _ _ _ _ _ _ _ h1 (h1 ▸ hk)]
      rw [saysF_miss _ _ _ "cases" _ _ _ (by rw [h1]; decide)]
      rw [saysF_miss _ _ _ "limits" _ _ _ (by rw [h1]; decide)]
      rw [saysF_miss _ _ _ "slow" _ _ _ (by rw [h1]; decide)]
      rw [saysF_miss _ _ _ "validator" _ _ _ (by rw [h1]; decide)]
      simp only [Problem.set, h1, String.reduceEq, if_true, if_false]
      generalize hg : (decInteractive C zero) j = o
      cases o with
      | none => simp
      | some x =>
        simp only [Option.map_some, ih _ _ hd, Option.some.injEq]
        rw [saysF_absent _ "interactive" _ _ _ (h1 ▸ hk)]
        simp [eq_comm]
    by_cases h2 : foldName k = "limits"
    · rw [saysF_hit _ _ _ _ _ _ _ h2 (h2 ▸ hk)]
      rw [saysF_miss _ _ _ "cases" _ _ _ (by rw [h2]; decide)]
      rw [saysF_miss _ _ _ "interactive" _ _ _ (by rw [h2]; decide)]
      rw [saysF_miss _ _ _ "slow" _ _ _ (by rw [h2]; decide)]
      rw [saysF_miss _ _ _ "validator" _ _ _ (by rw [h2]; decide)]
      simp only [Problem.set, h2, String.reduceEq, if_true, if_false]
      generalize hg : (decLimits C) a.limits j = o
      cases o with
      | none => simp
      | some x =>
        simp only [Option.map_some, ih _ _ hd, Option.some.injEq]
        rw [saysF_absent _ "limits" _ _ _ (h2 ▸ hk)]
        simp [eq_comm]
    by_cases h3 : foldName k = "slow"
    · rw [saysF_hit _ _ _ _ _ _ _ h3 (h3 ▸ hk)]
      rw [saysF_miss _ _ _ "cases" _ _ _ (by rw [h3]; decide)]
      rw [saysF_miss _ _ _ "interactive" _ _ _ (by rw [h3]; decide)]
      rw [saysF_miss _ _ _ "limits" _ _ _ (by rw [h3]; decide)]
      rw [saysF_miss _ _ _ "validator" _ _ _ (by rw [h3]; decide)]
      simp only [Problem.set, h3, String.reduceEq, if_true, if_false]
      generalize hg : decBool a.slow j = o
      cases o with
      | none => simp
      | some x =>
        simp only [Option.map_some, ih _ _ hd, Option.some.injEq]
        rw [saysF_absent _ "slow" _ _ _ (h3 ▸ hk)]
        simp [eq_comm]
    by_cases h4 : foldName k = "validator"
    · rw [saysF_hit _ _ _ _ _ _ _ h4 (h4 ▸ hk)]
      rw [saysF_miss _ _ _ "cases" _ _ _ (by rw [h4]; decide)]
      rw [saysF_miss _ _ _ "interactive" _ _ _ (by rw [h4]; decide)]
      rw [saysF_miss _ _ _ "limits" _ _ _ (by rw [h4]; decide)]
      rw [saysF_miss _ _ _ "slow" _ _ _ (by rw [h4]; decide)]
      simp only [Problem.set, h4, String.reduceEq, if_true, if_false]
      generalize hg : (decValidator C) a.validator j = o
      cases o with
      | none => simp
      | some x =>
        simp only [Option.map_some, ih _ _ hd, Option.some.injEq]
        rw [saysF_absent _ "validator" _ _ _ (h4 ▸ hk)]
        simp [eq_comm]
    rw [saysF_miss _ _ _ "cases" _ _ _ h0]
    rw [saysF_miss _ _ _ "interactive" _ _ _ h1]
    rw [saysF_miss _ _ _ "limits" _ _ _ h2]
    rw [saysF_miss _ _ _ "slow" _ _ _ h3]
    rw [saysF_miss _ _ _ "validator" _ _ _ h4]
    simp only [Problem.set, h0, h1, h2, h3, h4, if_false, ih _ _ hd]

theorem literal_fields (ms : List (String × J)) : ∀ (a r : RawLiteral), Distinct ms →
    (fields RawLiteral.set a ms = some r ↔
      SaysF ms "in" decStr a.input r.input ∧
      SaysF ms "out" decStr a.output r.output ∧
      SaysF ms "weight" (fun _ => decFltPtr) a.weight r.weight) := by
  induction ms with
  | nil =>
    intro a r _
    simp only [fields, Option.some.injEq, saysF_nil]
    cases a; cases r; simp [eq_comm]
  | cons m ms ih =>
    obtain ⟨k, j⟩ := m
    intro a r hd
    obtain ⟨hk, hd⟩ := distinct_cons hd
    simp only [fields]
    by_cases h0 : foldName k = "in"
    · rw [saysF_hit _ _ _ _ _ _ _ h0 (h0 ▸ hk)]
      rw [saysF_miss _ _ _ "out" _ _ _ (by rw [h0]; decide)]
      rw [saysF_miss _ _ _ "weight" _ _ _ (by rw [h0]; decide)]
      simp only [RawLiteral.set, h0, String.reduceEq, if_true, if_false]
      generalize hg : decStr a.input j = o
      cases o with
      | none => simp
      | some x =>
        simp only [Option.map_some, ih _ _ hd, Option.some.injEq]
        rw [saysF_absent _ "in" _ _ _ (h0 ▸ hk)]
        simp [eq_comm]
    by_cases h1 : foldName k = "out"
    · rw [saysF_hit _ _ _ _ _ _ _ h1 (h1 ▸ hk)]
      rw [saysF_miss _ _ _ "in" _ _ _ (by rw [h1]; decide)]
      rw [saysF_miss _ _ _ "weight" _ _ _ (by rw [h1]; decide)]
      simp only [RawLiteral.set, h1, String.reduceEq, if_true, if_false]
      generalize hg : decStr a.output j = o
      cases o with
      | none => simp
      | some x =>
        simp only [Option.map_some, ih _ _ hd, Option.some.injEq]
        rw [saysF_absent _ "out" _ _ _ (h1 ▸ hk)]
        simp [eq_comm]
    by_cases h2 : foldName k = "weight"
    · rw [saysF_hit _ _ _ _ _ _ _ h2 (h2 ▸ hk)]
      rw [saysF_miss _ _ _ "in" _ _ _ (by rw [h2]; decide)]
      rw [saysF_miss _ _ _ "out" _ _ _ (by rw [h2]; decide)]
      simp only [RawLiteral.set, h2, String.reduceEq, if_true, if_false]
      generalize hg : (decFltPtr) j = o
      cases o with
      | none => simp
      | some x =>
        simp only [Option.map_some, ih _ _ hd, Option.some.injEq]
        rw [saysF_absent _ "weight" _ _ _ (h2 ▸ hk)]
        simp [eq_comm]
    rw [saysF_miss _ _ _ "in" _ _ _ h0]
    rw [saysF_miss _ _ _ "out" _ _ _ h1]
    rw [saysF_miss _ _ _ "weight" _ _ _ h2]
    simp only [RawLiteral.set, h0, h1, h2, if_false, ih _ _ hd]

/-! ### C151 -/

/-- **C151** The settings of a problem are read member by member, whatever the order, the case of the letters and
further members; a member that cannot be read is an error. -/
theorem C151_problem (C : Codecs ι) (zero : ι) (ofF : ℚ → ℚ) (ms : List (String × J)) (hd : Distinct ms) (p : Problem ι) :
    decProblem C zero ofF (.struct ms) = some p ↔
      Says ms "Cases" (fun _ => decSlice (decGroup ofF)) none p.cases ∧
      Says ms "Interactive" (fun _ => decInteractive C zero) none p.interactive ∧
      Says ms "Limits" (decLimits C) ⟨0, 0, 0, 0, 0⟩ p.limits ∧
      Says ms "Slow" decBool false p.slow ∧
      Says ms "Validator" (decValidator C) ⟨none, [], none, none⟩ p.validator := by
  simp only [says_iff, foldName_Cases, foldName_Interactive, foldName_Limits, foldName_Slow, foldName_Validator]
  exact problem_fields C zero ofF ms {} p hd

/-- **C151** The same for a group of cases. -/
theorem C151_group (ofF : ℚ → ℚ) (ms : List (String × J)) (hd : Distinct ms) (g : Group) :
    decGroup ofF (.struct ms) = some g ↔
      Says ms "Cases" (fun _ => decSlice (decCase ofF)) none g.cases ∧ Says ms "Name" decStr [] g.name := by
  simp only [says_iff, foldName_Cases, foldName_Name]
  exact group_fields ofF ms {} g hd

/-- **C151** The same for a case, whose weight is a number. -/
theorem C151_case (ofF : ℚ → ℚ) (ms : List (String × J)) (hd : Distinct ms) (c : Case) :
    decCase ofF (.struct ms) = some c ↔
      Says ms "Name" decStr [] c.name ∧
      ∃ q : ℚ, Says ms "Weight" decFlt (.fin 0) (.fin q) ∧ c.weight = some (ofF q) := by
  simp only [says_iff, foldName_Weight, foldName_Name]
  simp only [decCase]
  cases hf : fields RawCase.set {} ms with
  | none =>
    simp only [reduceCtorEq, false_iff, not_and, not_exists]
    intro h1 q h2
    have := (case_fields ms {} ⟨c.name, .fin q⟩ hd).mpr ⟨h1, h2⟩
    rw [hf] at this; cases this
  | some r =>
    obtain ⟨q, hq⟩ := raw_finite ms {} r ⟨0, rfl⟩ hf
    have hr := (case_fields ms {} r hd).mp hf
    simp only [Option.some.injEq]
    constructor
    · rintro rfl
      exact ⟨hr.1, q, hq ▸ hr.2, by simp [hq, ofScore]⟩
    · rintro ⟨h1, q', h2, h3⟩
      have := (case_fields ms {} ⟨c.name, .fin q'⟩ hd).mpr ⟨h1, h2⟩
      rw [hf] at this
      obtain rfl := Option.some.inj this
      cases c
      simp only at h3 ⊢
      rw [h3]; rfl

/-- **C151** The same for limits, -/
theorem C151_limits (C : Codecs ι) (ms : List (String × J)) (hd : Distinct ms) (old l : Limits) :
    decLimits C old (.struct ms) = some l ↔
      Says ms "TimeLimit" C.duration.dec old.timeLimit l.timeLimit ∧
      Says ms "ExtraWallTime" C.duration.dec old.extraWallTime l.extraWallTime ∧
      Says ms "OverallWallTimeLimit" C.duration.dec old.overallWallTimeLimit l.overallWallTimeLimit ∧
      Says ms "MemoryLimit" C.byte.dec old.memoryLimit l.memoryLimit ∧
      Says ms "OutputLimit" C.byte.dec old.outputLimit l.outputLimit := by
  simp only [says_iff, foldName_TimeLimit, foldName_ExtraWallTime, foldName_OverallWallTimeLimit, foldName_MemoryLimit,
    foldName_OutputLimit]
  refine (limits_fields C ms old l hd).trans ⟨?_, ?_⟩
  · rintro ⟨h1, h2, h3, h4, h5⟩; exact ⟨h5, h1, h4, h2, h3⟩
  · rintro ⟨h5, h1, h4, h2, h3⟩; exact ⟨h1, h2, h3, h4, h5⟩

/-- for the validator, -/
theorem C151_validator (C : Codecs ι) (ms : List (String × J)) (hd : Distinct ms) (old v : Validator) :
    decValidator C old (.struct ms) = some v ↔
      Says ms "Name" decStr old.name v.name ∧
      Says ms "Lang" (fun _ => decPtr) old.lang v.lang ∧
      Says ms "Tolerance" (fun _ => decFltPtr) old.tolerance v.tolerance ∧
      Says ms "Limits" (fun _ => decLimitsPtr C) old.limits v.limits := by
  simp only [says_iff, foldName_Lang, foldName_Name, foldName_Tolerance, foldName_Limits]
  refine (validator_fields C ms old v hd).trans ⟨?_, ?_⟩
  · rintro ⟨h1, h2, h3, h4⟩; exact ⟨h2, h1, h3, h4⟩
  · rintro ⟨h2, h1, h3, h4⟩; exact ⟨h1, h2, h3, h4⟩

/-- and for a case of a literal input, whose weight is 1 if it is not given. -/
theorem C151_literal (ofF : ℚ → ℚ) (ms : List (String × J)) (hd : Distinct ms) (c : LiteralCase) :
    decLiteral ofF (.struct ms) = some (some c) ↔
      Says ms "in" decStr [] c.input ∧ Says ms "out" decStr [] c.output ∧
      ∃ w, Says ms "weight" (fun _ => decFltPtr) none w ∧
        c.weight = match w with | none => some 1 | some x => ofScore ofF x := by
  simp only [says_iff, foldName_in, foldName_out, foldName_weight]
  simp only [decLiteral]
  cases hf : fields RawLiteral.set {} ms with
  | none =>
    simp only [reduceCtorEq, false_iff, not_and, not_exists]
    intro h1 h2 w h3
    have := (literal_fields ms {} ⟨c.input, c.output, w⟩ hd).mpr ⟨h1, h2, h3⟩
    rw [hf] at this; cases this
  | some r =>
    have hr := (literal_fields ms {} r hd).mp hf
    simp only [Option.some.injEq]
    constructor
    · rintro rfl
      exact ⟨hr.1, hr.2.1, r.weight, hr.2.2, rfl⟩
    · rintro ⟨h1, h2, w, h3, h4⟩
      have := (literal_fields ms {} ⟨c.input, c.output, w⟩ hd).mpr ⟨h1, h2, h3⟩
      rw [hf] at this
      obtain rfl := Option.some.inj this
      cases c
      simp only at h4 ⊢
      rw [h4]
      cases w <;> rfl

theorem says_null {β : Type} (l m : List (String × J)) (k name : String) (read : β → J → Option β) (zero x : β)
    (hd : Distinct (l ++ (k, J.null) :: m)) (h0 : read zero .null = some zero) :
    Says (l ++ (k, J.null) :: m) name read zero x ↔ Says (l ++ m) name read zero x := by
  have hd' := List.pairwise_append.mp hd
  have hk : SameName k name → ∀ y ∈ l ++ m, ¬ SameName y.1 name := by
    intro hs y hy hys
    have he : SameName y.1 k := (foldName_iff _ _).mp (((foldName_iff _ _).mpr hys).trans ((foldName_iff _ _).mpr hs).symm)
    rcases List.mem_append.mp hy with hy | hy
    · exact hd'.2.2 y hy (k, .null) (by simp) he
    · exact (List.pairwise_cons.mp hd'.2.1).1 y hy
        ((foldName_iff _ _).mp ((foldName_iff _ _).mpr he).symm)
  by_cases hs : SameName k name
  · have ha := hk hs
    constructor
    · intro h
      have h1 := h.2 (k, .null) (by simp) hs
      simp only [h0, Option.some.injEq] at h1
      exact ⟨fun _ => h1.symm, fun y hy hys => absurd hys (ha y hy)⟩
    · intro h
      have h1 := h.1 ha
      subst h1
      refine ⟨fun _ => rfl, ?_⟩
      intro y hy hys
      simp only [List.mem_append, List.mem_cons] at hy
      rcases hy with hy | rfl | hy
      · exact absurd hys (ha y (by simp [hy]))
      · exact h0
      · exact absurd hys (ha y (by simp [hy]))
  · simp only [Says, List.mem_append, List.mem_cons, or_imp, forall_and, forall_eq, hs, not_false_eq_true, true_and,
      false_imp_iff]

theorem distinct_without {l m : List (String × J)} {x : String × J} (hd : Distinct (l ++ x :: m)) : Distinct (l ++ m) :=
  List.Pairwise.sublist (by simp) hd

theorem eq_of_some_iff {α : Type} {a b : Option α} (h : ∀ x, a = some x ↔ b = some x) : a = b := Option.ext h

/-- **C151** A member that is `null` is as good as a missing one. -/
theorem C151_null (C : Codecs ι) (zero : ι) (ofF : ℚ → ℚ) (l m : List (String × J)) (k : String)
    (hd : Distinct (l ++ (k, J.null) :: m)) :
    decProblem C zero ofF (.struct (l ++ (k, .null) :: m)) = decProblem C zero ofF (.struct (l ++ m)) ∧
    decGroup ofF (.struct (l ++ (k, .null) :: m)) = decGroup ofF (.struct (l ++ m)) ∧
    decCase ofF (.struct (l ++ (k, .null) :: m)) = decCase ofF (.struct (l ++ m)) ∧
    decValidator C {} (.struct (l ++ (k, .null) :: m)) = decValidator C {} (.struct (l ++ m)) ∧
    decLiteral ofF (.struct (l ++ (k, .null) :: m)) = decLiteral ofF (.struct (l ++ m)) := by
  have hd2 := distinct_without hd
  refine ⟨?_, ?_, ?_, ?_, ?_⟩
  · refine eq_of_some_iff fun p => ?_
    rw [C151_problem C zero ofF _ hd, C151_problem C zero ofF _ hd2, says_null l m k _ _ _ _ hd (by rfl),
      says_null l m k _ _ _ _ hd (by rfl), says_null l m k _ _ _ _ hd (by rfl), says_null l m k _ _ _ _ hd (by rfl),
      says_null l m k _ _ _ _ hd (by rfl)]
  · refine eq_of_some_iff fun p => ?_
    rw [C151_group ofF _ hd, C151_group ofF _ hd2, says_null l m k _ _ _ _ hd (by rfl),
      says_null l m k _ _ _ _ hd (by rfl)]
  · refine eq_of_some_iff fun p => ?_
    rw [C151_case ofF _ hd, C151_case ofF _ hd2, says_null l m k _ _ _ _ hd (by rfl)]
    simp only [says_null l m k "Weight" decFlt _ _ hd (by rfl)]
  · refine eq_of_some_iff fun p => ?_
    rw [C151_validator C _ hd, C151_validator C _ hd2, says_null l m k _ _ _ _ hd (by rfl),
      says_null l m k _ _ _ _ hd (by rfl), says_null l m k _ _ _ _ hd (by rfl), says_null l m k _ _ _ _ hd (by rfl)]
  · refine eq_of_some_iff fun p => ?_
    cases p with
    | none =>
      have : ∀ ms : List (String × J), decLiteral ofF (.struct ms) ≠ some none := by
        intro ms; simp only [decLiteral]; split <;> simp
      simp [this]
    | some c =>
      rw [C151_literal ofF _ hd, C151_literal ofF _ hd2, says_null l m k _ _ _ _ hd (by rfl),
        says_null l m k _ _ _ _ hd (by rfl)]
      simp only [says_null l m k "weight" (fun _ => decFltPtr) none _ hd (by rfl)]

theorem says_unknown {β : Type} (l m : List (String × J)) (k name : String) (j : J) (read : β → J → Option β) (zero x : β)
    (h : ¬ SameName k name) : Says (l ++ (k, j) :: m) name read zero x ↔ Says (l ++ m) name read zero x := by
  simp only [Says, List.mem_append, List.mem_cons, or_imp, forall_and, forall_eq, h, not_false_eq_true, true_and,
    false_imp_iff]

/-- **C151** A member with a name of its own is ignored, whatever its value. -/
theorem C151_unknown (C : Codecs ι) (zero : ι) (ofF : ℚ → ℚ) (l m : List (String × J)) (k : String) (j : J)
    (hd : Distinct (l ++ (k, j) :: m)) :
    ((∀ n ∈ ["Cases", "Interactive", "Limits", "Slow", "Validator"], ¬ SameName k n) →
      decProblem C zero ofF (.struct (l ++ (k, j) :: m)) = decProblem C zero ofF (.struct (l ++ m))) ∧
    ((∀ n ∈ ["Cases", "Name"], ¬ SameName k n) →
      decGroup ofF (.struct (l ++ (k, j) :: m)) = decGroup ofF (.struct (l ++ m))) ∧
    ((∀ n ∈ ["Name", "Weight"], ¬ SameName k n) →
      decCase ofF (.struct (l ++ (k, j) :: m)) = decCase ofF (.struct (l ++ m))) ∧
    ((∀ n ∈ ["TimeLimit", "ExtraWallTime", "OverallWallTimeLimit", "MemoryLimit", "OutputLimit"], ¬ SameName k n) →
      ∀ old, decLimits C old (.struct (l ++ (k, j) :: m)) = decLimits C old (.struct (l ++ m))) ∧
    ((∀ n ∈ ["Name", "Lang", "Tolerance", "Limits"], ¬ SameName k n) →
      ∀ old, decValidator C old (.struct (l ++ (k, j) :: m)) = decValidator C old (.struct (l ++ m))) := by
  have hd2 := distinct_without hd
  refine ⟨fun h => ?_, fun h => ?_, fun h => ?_, fun h old => ?_, fun h old => ?_⟩
  all_goals
    simp only [List.mem_cons, List.not_mem_nil, or_false, forall_eq_or_imp, forall_eq] at h
    refine eq_of_some_iff fun p => ?_
  · rw [C151_problem C zero ofF _ hd, C151_problem C zero ofF _ hd2, says_unknown l m k _ j _ _ _ h.1,
      says_unknown l m k _ j _ _ _ h.2.1, says_unknown l m k _ j _ _ _ h.2.2.1, says_unknown l m k _ j _ _ _ h.2.2.2.1,
      says_unknown l m k _ j _ _ _ h.2.2.2.2]
  · rw [C151_group ofF _ hd, C151_group ofF _ hd2, says_unknown l m k _ j _ _ _ h.1, says_unknown l m k _ j _ _ _ h.2]
  · rw [C151_case ofF _ hd, C151_case ofF _ hd2, says_unknown l m k _ j _ _ _ h.1]
    simp only [says_unknown l m k "Weight" j _ _ _ h.2]
  · rw [C151_limits C _ hd, C151_limits C _ hd2, says_unknown l m k _ j _ _ _ h.1,
      says_unknown l m k _ j _ _ _ h.2.1, says_unknown l m k _ j _ _ _ h.2.2.1, says_unknown l m k _ j _ _ _ h.2.2.2.1,
      says_unknown l m k _ j _ _ _ h.2.2.2.2]
  · rw [C151_validator C _ hd, C151_validator C _ hd2, says_unknown l m k _ j _ _ _ h.1,
      says_unknown l m k _ j _ _ _ h.2.1, says_unknown l m k _ j _ _ _ h.2.2.1, says_unknown l m k _ j _ _ _ h.2.2.2]

-- Non-vacuity: members in another order, with other letters, a null and one of its own.
example :
    let ms : List (String × J) := [("weight", .flt (1 / 2)), ("Comment", .bool true), ("NAME", .str [0x61]), ("x", .null)]
    Distinct ms ∧ decCase id (.struct ms) = some ⟨[0x61], some (1 / 2)⟩ := by
  refine ⟨?_, by decide +kernel⟩
  unfold Distinct
  decide +kernel

example : decGroup id (.struct [("name", .str [0x61]), ("cases", .arr [.struct [("Name", .str [0x62])]])]) =
    some ⟨some [⟨[0x62], some 0⟩], [0x61]⟩ := by decide +kernel

end Quark.Settings
