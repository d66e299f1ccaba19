import Verif.Wire.Props
import Verif.Wire.Names

/-!
# C138: what a reader of runs and results accepts

Runner and grader may be of different versions: members that are not known, missing or `null`, in any order.
-/
namespace Quark.Wire
open Quark.Float (F64 fl)

/-! ## Specification -/

/-- A JSON value that can be read as a text. -/
def IsText (j : J) : Prop := j = .null ∨ ∃ l, j = .str l ∧ (unquote l).isSome
/-- A JSON value that can be read as a number within `[lo, hi)`. -/
def IsInt (lo hi : Int) (j : J) : Prop := j = .null ∨ ∃ n, j = .int n ∧ lo ≤ n ∧ n < hi
/-- A JSON value that can be read as a `float64`. -/
def IsFloat (j : J) : Prop := j = .null ∨ (∃ q, j = .flt q) ∨ ∃ n q, j = .int n ∧ fl n = .fin q
def IsBool (j : J) : Prop := j = .null ∨ ∃ b, j = .bool b

/-- What each member of a run may hold; other members may hold anything. -/
def RunMember (k : String) (j : J) : Prop :=
  (SameName k "attempt_id" → IsInt 0 18446744073709551616 j) ∧
  (∀ n ∈ ["source", "language", "problem", "input_hash"], SameName k n → IsText j) ∧
  (SameName k "max_score" → IsFloat j) ∧
  (SameName k "debug" → IsBool j)

/-- The members of a run. -/
def runKeys : List String := ["attempt_id", "source", "language", "problem", "input_hash", "max_score", "debug"]

/-- The members of a result. -/
def resultKeys : List String :=
  ["verdict", "compile_error", "compile_meta", "score", "contest_score", "max_score", "time", "wall_time", "memory",
   "judged_by", "groups"]

/-! ## Lemmas -/

theorem decStr_ok (old : Bytes) (j : J) : (decStr old j).isSome ↔ IsText j := by
  cases j <;> simp [decStr, IsText]
theorem decUInt64_ok (old : UInt64) (j : J) : (decUInt64 old j).isSome ↔ IsInt 0 18446744073709551616 j := by
  cases j with
  | int n =>
    simp only [decUInt64, IsInt, reduceCtorEq, false_or, J.int.injEq]
    constructor
    · intro h
      split at h
      · next h' => exact ⟨n, rfl, h'.1, by simpa using h'.2⟩
      · cases h
    · rintro ⟨_, rfl, a, b⟩
      rw [if_pos ⟨a, by simpa using b⟩]; rfl
  | _ => simp [decUInt64, IsInt]
theorem decFlt_ok (old : F64) (j : J) : (decFlt old j).isSome ↔ IsFloat j := by
  cases j with
  | int n =>
    simp only [decFlt, IsFloat, reduceCtorEq, false_or, J.int.injEq, exists_false]
    constructor
    · intro h
      split at h
      · next q hq => exact ⟨n, q, rfl, hq⟩
      · cases h
    · rintro ⟨_, q, rfl, hq⟩
      rw [hq]; rfl
  | _ => simp [decFlt, IsFloat]
theorem decBool_ok (old : Bool) (j : J) : (decBool old j).isSome ↔ IsBool j := by
  cases j <;> simp [decBool, IsBool]

theorem set_ok (r : RawRun) (k : String) (j : J) : (r.set (foldName k) j).isSome ↔ RunMember k j := by
  unfold RawRun.set RunMember
  simp only [← foldName_iff, List.mem_cons, List.not_mem_nil, or_false, forall_eq_or_imp, forall_eq,
    foldName_attempt_id, foldName_source, foldName_language, foldName_problem, foldName_input_hash, foldName_max_score,
    foldName_debug]
  generalize foldName k = k
  by_cases h1 : k = "attempt_id"
  · subst h1; simp [decUInt64_ok]
  by_cases h2 : k = "source"
  · subst h2; simp [decStr_ok]
  by_cases h3 : k = "language"
  · subst h3; simp [decStr_ok]
  by_cases h4 : k = "problem"
  · subst h4; simp [decStr_ok]
  by_cases h5 : k = "input_hash"
  · subst h5; simp [decStr_ok]
  by_cases h6 : k = "max_score"
  · subst h6; simp [decFlt_ok]
  by_cases h7 : k = "debug"
  · subst h7; simp [decBool_ok]
  simp [h1, h2, h3, h4, h5, h6, h7]

theorem fields_skip {α} (set : α → String → J → Option α) (k : String) (j : J) (h : ∀ a, set a (foldName k) j = some a)
    (a : α) (l m : List (String × J)) : fields set a (l ++ (k, j) :: m) = fields set a (l ++ m) := by
  rw [fields_append, fields_append]
  congr 1
  funext b
  simp only [fields, h]

theorem fields_perm {α} (set : α → String → J → Option α)
    (h : ∀ a k j k' j', k ≠ k' → ((set a k j).bind fun b => set b k' j') = (set a k' j').bind fun b => set b k j)
    {l m : List (String × J)} (hp : l.Perm m) (hn : (l.map fun p => foldName p.1).Nodup) (a : α) :
    fields set a l = fields set a m := by
  induction hp generalizing a with
  | nil => rfl
  | cons x hp ih =>
    obtain ⟨k, j⟩ := x
    simp only [fields]
    cases set a (foldName k) j with
    | none => rfl
    | some b => exact ih (List.nodup_cons.mp hn).2 b
  | swap x y l =>
    obtain ⟨k, j⟩ := x
    obtain ⟨k', j'⟩ := y
    have hk : foldName k' ≠ foldName k := by
      intro e
      simp [e] at hn
    have e := h a _ j' _ j hk
    have aux : ∀ (a : α) (k j k' j'), fields set a ((k, j) :: (k', j') :: l) =
        ((set a (foldName k) j).bind fun b => set b (foldName k') j').bind fun b => fields set b l := by
      intro a k j k' j'
      simp only [fields]
      cases set a (foldName k) j with
      | none => rfl
      | some b =>
        simp only [Option.bind_some]
        cases set b (foldName k') j' <;> rfl
    rw [aux, aux, e]
  | trans hp hq ih1 ih2 =>
    rw [ih1 hn, ih2 ((hp.map _).nodup_iff.mp hn)]

theorem runSet_unknown (r : RawRun) (k : String) (j : J) (h : k ∉ runKeys) : r.set k j = some r := by
  simp only [runKeys, List.mem_cons, List.not_mem_nil, or_false, not_or] at h
  obtain ⟨h1, h2, h3, h4, h5, h6, h7⟩ := h
  simp only [RawRun.set, h1, h2, h3, h4, h5, h6, h7, if_false]

theorem runSet_null (r : RawRun) (k : String) : r.set k .null = some r := by
  unfold RawRun.set
  repeat' split
  all_goals rfl

theorem resultSet_unknown (ofF : ℚ → ℚ) (r : RawResult) (k : String) (j : J) (h : k ∉ resultKeys) :
    r.set ofF k j = some r := by
  simp only [resultKeys, List.mem_cons, List.not_mem_nil, or_false, not_or] at h
  obtain ⟨h1, h2, h3, h4, h5, h6, h7, h8, h9, h10, h11⟩ := h
  simp only [RawResult.set, h1, h2, h3, h4, h5, h6, h7, h8, h9, h10, h11, if_false]

theorem bind_map_comm {α β γ} (x : Option α) (y : Option β) (f : α → β → γ) :
    (x.bind fun a => y.map fun b => f a b) = y.bind fun b => x.map fun a => f a b := by
  cases x <;> cases y <;> rfl

theorem runSet_comm (r : RawRun) (k : String) (j : J) (k' : String) (j' : J) (hne : k ≠ k') :
    ((r.set k j).bind fun b => b.set k' j') = (r.set k' j').bind fun b => b.set k j := by
  by_cases hk : k ∈ runKeys
  · by_cases hk' : k' ∈ runKeys
    · simp only [runKeys, List.mem_cons, List.not_mem_nil, or_false] at hk hk'
      rcases hk with rfl | rfl | rfl | rfl | rfl | rfl | rfl <;>
        rcases hk' with rfl | rfl | rfl | rfl | rfl | rfl | rfl <;>
        first
        | exact absurd rfl hne
        | (simp only [RawRun.set, String.reduceEq, if_true, if_false, Option.bind_map, Function.comp_def]
           exact bind_map_comm _ _ _)
    · simp only [runSet_unknown _ k' _ hk', Option.bind_some]
      cases r.set k j <;> rfl
  · simp only [runSet_unknown _ k _ hk, Option.bind_some]
    cases r.set k' j' <;> rfl

set_option maxHeartbeats 4000000 in
theorem resultSet_comm (ofF : ℚ → ℚ) (r : RawResult) (k : String) (j : J) (k' : String) (j' : J) (hne : k ≠ k') :
    ((r.set ofF k j).bind fun b => b.set ofF k' j') = (r.set ofF k' j').bind fun b => b.set ofF k j := by
  by_cases hk : k ∈ resultKeys
  · by_cases hk' : k' ∈ resultKeys
    · simp only [resultKeys, List.mem_cons, List.not_mem_nil, or_false] at hk hk'
      rcases hk with rfl | rfl | rfl | rfl | rfl | rfl | rfl | rfl | rfl | rfl | rfl <;>
        rcases hk' with rfl | rfl | rfl | rfl | rfl | rfl | rfl | rfl | rfl | rfl | rfl <;>
        first
        | exact absurd rfl hne
        | (simp only [RawResult.set, String.reduceEq, if_true, if_false, Option.bind_map, Function.comp_def]
           exact bind_map_comm _ _ _)
    · simp only [resultSet_unknown _ _ k' _ hk', Option.bind_some]
      cases r.set ofF k j <;> rfl
  · simp only [resultSet_unknown _ _ k _ hk, Option.bind_some]
    cases r.set ofF k' j' <;> rfl

/-! ## C138 -/

theorem unknown_run {k : String} (h : ∀ n ∈ runKeys, ¬ SameName k n) : foldName k ∉ runKeys := by
  intro hm
  refine h _ hm ((foldName_iff _ _).mp ?_)
  simp only [runKeys, List.mem_cons, List.not_mem_nil, or_false] at hm
  rcases hm with h | h | h | h | h | h | h <;> simp [h]

theorem unknown_result {k : String} (h : ∀ n ∈ resultKeys, ¬ SameName k n) : foldName k ∉ resultKeys := by
  intro hm
  refine h _ hm ((foldName_iff _ _).mp ?_)
  simp only [resultKeys, List.mem_cons, List.not_mem_nil, or_false] at hm
  rcases hm with h | h | h | h | h | h | h | h | h | h | h <;> simp [h]

theorem nodup_names {l : List (String × J)} (hn : l.Pairwise fun p q => ¬ SameName p.1 q.1) :
    (l.map fun p => foldName p.1).Nodup := by
  rw [List.Nodup, List.pairwise_map]
  exact hn.imp fun h e => h ((foldName_iff _ _).mp e)

/-- **C138** A run is understood exactly if every known member holds a value of its kind; in particular an attempt that
is negative or does not fit 64 bits is refused. -/
theorem C138_run_accepted (ofF : ℚ → ℚ) (ms : List (String × J)) :
    (decRun ofF (.struct ms)).isSome ↔ ∀ m ∈ ms, RunMember m.1 m.2 := by
  have key : ∀ (ms : List (String × J)) (r : RawRun), (fields RawRun.set r ms).isSome ↔ ∀ m ∈ ms, RunMember m.1 m.2 := by
    intro ms
    induction ms with
    | nil => intro r; simp [fields]
    | cons m ms ih =>
      intro r
      obtain ⟨k, j⟩ := m
      simp only [fields, List.mem_cons, forall_eq_or_imp]
      rw [← set_ok r k j]
      cases r.set (foldName k) j with
      | none => simp
      | some r' => simpa using ih r'
  rw [← key ms {}]
  simp only [decRun]
  cases fields RawRun.set {} ms <;> simp

/-- **C138** A member that a runner does not know makes no difference, nor does one that is `null`, wherever it is. -/
theorem C138_run_extra (ofF : ℚ → ℚ) (l m : List (String × J)) (k : String) (j : J) (h : (∀ n ∈ runKeys, ¬ SameName k n) ∨ j = .null) :
    decRun ofF (.struct (l ++ (k, j) :: m)) = decRun ofF (.struct (l ++ m)) := by
  have hs : ∀ r : RawRun, r.set (foldName k) j = some r := by
    intro r
    rcases h with h | rfl
    · exact runSet_unknown r _ j (unknown_run h)
    · exact runSet_null r _
  simp only [decRun, fields_skip _ k j hs]

/-- **C138** The order of the members does not matter. -/
theorem C138_run_order (ofF : ℚ → ℚ) (l m : List (String × J)) (h : l.Perm m) (hn : l.Pairwise fun p q => ¬ SameName p.1 q.1) :
    decRun ofF (.struct l) = decRun ofF (.struct m) := by
  simp only [decRun, fields_perm _ runSet_comm h (nodup_names hn)]

/-- **C138** What is missing is zero, empty or false: of a run with no members nothing but that is read. -/
theorem C138_run_missing (ofF : ℚ → ℚ) :
    decRun ofF (.struct []) = some ⟨0, [], [], [], [], some (ofF 0), false⟩ ∧
    decRun ofF .null = some ⟨0, [], [], [], [], none, false⟩ := ⟨rfl, rfl⟩

/-- **C138** The same for results: members the grader does not know make no difference, -/
theorem C138_result_extra (ofF : ℚ → ℚ) (l m : List (String × J)) (k : String) (j : J) (h : ∀ n ∈ resultKeys, ¬ SameName k n) :
    decResult ofF (.struct (l ++ (k, j) :: m)) = decResult ofF (.struct (l ++ m)) := by
  simp only [decResult, fields_skip _ k j (fun r => resultSet_unknown ofF r _ j (unknown_result h))]

/-- nor does the order, -/
theorem C138_result_order (ofF : ℚ → ℚ) (l m : List (String × J)) (h : l.Perm m) (hn : l.Pairwise fun p q => ¬ SameName p.1 q.1) :
    decResult ofF (.struct l) = decResult ofF (.struct m) := by
  simp only [decResult, fields_perm _ (resultSet_comm ofF) h (nodup_names hn)]

/-- nor a member that is `null`. -/
theorem C138_result_null (ofF : ℚ → ℚ) (l m : List (String × J)) (k : String)
    (hn : (l ++ (k, J.null) :: m).Pairwise fun p q => ¬ SameName p.1 q.1) :
    decResult ofF (.struct (l ++ (k, .null) :: m)) = decResult ofF (.struct (l ++ m)) := by
  rw [C138_result_order ofF _ ((k, .null) :: (l ++ m)) List.perm_middle hn]
  have : ∀ k, RawResult.set ofF {} k .null = some {} := by
    intro k
    by_cases hk : k ∈ resultKeys
    · simp only [resultKeys, List.mem_cons, List.not_mem_nil, or_false] at hk
      rcases hk with rfl | rfl | rfl | rfl | rfl | rfl | rfl | rfl | rfl | rfl | rfl <;>
        simp only [RawResult.set, String.reduceEq, if_true, if_false, decStr, decPtr, decMap, decFlt, decInt64, decSlice,
          Option.map_some]
    · exact resultSet_unknown ofF _ k _ hk
  simp only [decResult, fields, this]

/-- **C138** The same for the groups, the cases and the metadata in a result. -/
theorem C138_parts_extra (ofF : ℚ → ℚ) (l m : List (String × J)) (k : String) (j : J) :
    ((∀ n ∈ ["group", "score", "contest_score", "max_score", "cases"], ¬ SameName k n) →
      decGroup ofF (.struct (l ++ (k, j) :: m)) = decGroup ofF (.struct (l ++ m))) ∧
    ((∀ n ∈ ["name", "score", "contest_score", "max_score", "verdict", "meta", "individual_meta"], ¬ SameName k n) →
      decCase ofF (.struct (l ++ (k, j) :: m)) = decCase ofF (.struct (l ++ m))) ∧
    ((∀ n ∈ ["verdict", "exit_status", "time", "sys_time", "wall_time", "memory", "signal", "syscall"], ¬ SameName k n) →
      decMeta (.struct (l ++ (k, j) :: m)) = decMeta (.struct (l ++ m))) := by
  refine ⟨fun h => ?_, fun h => ?_, fun h => ?_⟩
  all_goals
    simp only [List.mem_cons, List.not_mem_nil, or_false, forall_eq_or_imp, forall_eq, ← foldName_iff, foldName_group,
      foldName_score, foldName_contest_score, foldName_max_score, foldName_cases, foldName_name, foldName_verdict,
      foldName_meta, foldName_individual_meta, foldName_exit_status, foldName_time, foldName_sys_time, foldName_wall_time,
      foldName_memory, foldName_signal, foldName_syscall] at h
  · have hs : ∀ r : RawGroup, RawGroup.set ofF r (foldName k) j = some r := by
      intro r; simp only [RawGroup.set, h, if_false]
    simp only [decGroup, fields_skip _ k j hs]
  · have hs : ∀ r : RawCase, RawCase.set r (foldName k) j = some r := by
      intro r; simp only [RawCase.set, h, if_false]
    simp only [decCase, fields_skip _ k j hs]
  · have hs : ∀ r : Meta, Meta.set r (foldName k) j = some r := by
      intro r; simp only [Meta.set, h, if_false]
    simp only [decMeta, fields_skip _ k j hs]

/-- A result with nothing in it has no scores at all if it is `null`, and zero scores if it is an object. -/
theorem C138_result_missing (ofF : ℚ → ℚ) :
    (decResult ofF (.struct [])).map (fun r => (r.score, r.contestScore, r.maxScore)) =
      some (some (ofF 0), some (ofF 0), some (ofF 0)) ∧
    (decResult ofF .null).map (fun r => (r.score, r.contestScore, r.maxScore)) = some (none, none, none) := ⟨rfl, rfl⟩

/-- A run from a newer grader: another member, no `debug`, `problem` null, in another order. -/
example : decRun id (.struct [("attempt_id", .int 7), ("priority", .int 3), ("problem", .null)]) =
    some ⟨7, [], [], [], [], some 0, false⟩ :=
  (C138_run_extra id [("attempt_id", .int 7)] [("problem", .null)] "priority" (.int 3) (.inl (by decide +kernel))).trans
    (C138_run_extra id [("attempt_id", .int 7)] [] "problem" .null (.inr rfl))

/-- One past the largest attempt. -/
example : ¬ (decRun id (.struct [("debug", .null), ("attempt_id", .int 18446744073709551616)])).isSome := by
  rw [C138_run_accepted]
  intro h
  have := (h ("attempt_id", .int 18446744073709551616) (by simp)).1 (by decide +kernel)
  rcases this with h | ⟨n, h, -, h2⟩
  · cases h
  · cases h; omega

/-- Names are compared without case. -/
example : SameName "Attempt_ID" "attempt_id" ∧ SameName "ſource" "source" ∧ ¬ SameName "attempt-id" "attempt_id" := by
  decide +kernel

end Quark.Wire
