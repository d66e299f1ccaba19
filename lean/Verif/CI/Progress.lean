import Verif.CI.Props

/-!
# C136: what a client polling a CI report sees while the run goes on

/repo/cmd/omegaup-grader/ci.go ("ci.go" below): the sequence of reports `ServeHTTP`, `processCIRequest` and `addRun`
pass to `CIReport.Write`.  `Write` (cmd/omegaup-grader/ci.go 189-224) writes a temporary file and renames it over the report, so a reader
sees the last report whose `Write` succeeded, whole; which writes fail is arbitrary here.
-/
namespace Quark.CI

/-! ## Model -/

/-- The part of `CIReportTest` (cmd/omegaup-grader/ci.go 158-172) that changes: `token` is whether `EphemeralToken` is set, `started` whether
`StartTime` is, `finish` whether `FinishTime` and `Duration` are, `err` whether `Error` is.
Simplification: the texts of the token, the error and the times are not kept, only whether they are there. -/
structure TestRep where
  state : CIState
  started : Bool
  token : Bool
  finish : Bool
  err : Bool
  result : Option Result

/-- The part of `CIReport` (cmd/omegaup-grader/ci.go 175-187) that changes. Same simplification. -/
structure Rep where
  state : CIState
  finish : Bool
  err : Bool
  tests : List TestRep

/-- A test of `ciRunConfig.reportTests` before it is run (cmd/omegaup-grader/ci.go:496-504, 530-547): the Go zero value of everything;
the zero `CIState` is `CIStateWaiting`. -/
def freshTest : TestRep := ⟨waiting, false, false, false, false, none⟩

/-- How one `addRun` (cmd/omegaup-grader/ci.go 603-711) goes: it returns an error before the token is set (624-627, 629-632, 641-644) or
after (657-660); or the run is finished, having been seen running or not (666-676), with a result, and
`saveEphemeralRunRequest` succeeds or not (702-705). -/
inductive Fate where
  | early
  | refused
  | graded (seen : Bool) (r : Result) (saved : Bool)

/-- `Fate` as the `Outcome` of the model of the verdict. -/
def Fate.outcome : Fate → Outcome
  | .early | .refused => .err
  | .graded _ r saved => if saved then .done r else .err

/-- `addRun`, cmd/omegaup-grader/ci.go 603-711, with what its caller does on an error (873-878): the versions of the test that are passed to
`report.Write()` and the one left in the report.  `t` is the setting the test is judged by. -/
def addRun (t : Test) (x : TestRep) : Fate → List TestRep × TestRep
  | .early => ([], { x with started := true, state := error, err := true })
  | .refused => ([], { x with started := true, token := true, state := error, err := true })
  | .graded seen r saved =>
    let x1 := { x with started := true, token := true }
    let x2 := if seen then { x1 with state := running } else x1
    let w1 := if seen then [x2] else []
    let x3 := { x2 with finish := true, result := some r, state := judge t r }
    (w1 ++ [x3], if saved then x3 else { x3 with state := error, err := true })

/-- The loop of `processCIRequest`, cmd/omegaup-grader/ci.go 871-882: the reports passed to `report.Write()` and the tests it leaves.
`before` are the tests already run. -/
def loop (before : List TestRep) : List (Test × Fate) → List Rep × List TestRep
  | [] => ([], before)
  | (t, f) :: rest =>
    let a := addRun t freshTest f
    let ws := a.1.map fun x => Rep.mk running false false (before ++ x :: rest.map fun _ => freshTest)
    let b := loop (before ++ [a.2]) rest
    (ws ++ b.1, b.2)

/-- The result of `createCIRunConfigFromGit` (cmd/omegaup-grader/ci.go 839-846): an error, skipped or not, or the tests with what will
happen to each. -/
inductive Plan where
  | bad (skip : Bool)
  | tests (l : List (Test × Fate))

/-- All the reports passed to `Write`, in order, for one request: by `ServeHTTP` (cmd/omegaup-grader/ci.go:727-732, 819-823), then
`processCIRequest` (847-864; 865-868, the loop, 883-894). -/
def writes : Plan → List Rep
  | .bad skip => [⟨waiting, false, false, []⟩, ⟨if skip then skipped else error, true, true, []⟩]
  | .tests l =>
    let b := loop [] l
    [⟨waiting, false, false, []⟩, ⟨waiting, false, false, l.map fun _ => freshTest⟩] ++ b.1 ++
      [⟨(processTests (l.map fun x => (x.1, x.2.outcome))).2, true, false, b.2⟩]

/-! ## Specification -/

/-- How far a state is: waiting, running, final. -/
def rank (s : CIState) : Nat := if s = 0 then 0 else if s = 1 then 1 else 2

/-- A test as a reader may find it: waiting with nothing filled in; running, with a token; passed or failed, with
the token, the time and the result of the run; or in error, with a message. -/
def Sound (t : Test) (x : TestRep) : Prop :=
  (x = ⟨0, false, false, false, false, none⟩) ∨
  (x = ⟨1, true, true, false, false, none⟩) ∨
  (∃ r, Meets t r ∧ x = ⟨4, true, true, true, false, some r⟩) ∨
  (∃ r, ¬ Meets t r ∧ x = ⟨5, true, true, true, false, some r⟩) ∨
  (x.state = 3 ∧ x.started = true ∧ x.err = true ∧ (x.finish = true ↔ x.result.isSome) ∧ (x.finish = true → x.token = true))

/-- A test has only moved forward: from waiting to running to a final state, which stays (`a = b`) unless the request
could not be saved, when it turns into an error. -/
def Forward (a b : TestRep) : Prop :=
  rank a.state ≤ rank b.state ∧ (rank a.state = 2 → b = a ∨ (a.state ≠ 3 ∧ b = { a with state := 3, err := true }))

/-- A settled test that did not end in error because of its saving. -/
def Kept (f : Fate) : Prop := ∀ seen r saved, f = .graded seen r saved → saved = true

/-- The shape of a report in progress: some tests settled, then perhaps one running, then waiting ones. -/
def Shape (l : List TestRep) : Prop :=
  ∃ a b c, l = a ++ b ++ c ∧ (∀ x ∈ a, rank x.state = 2) ∧ (∀ x ∈ b, x.state = 1) ∧ b.length ≤ 1 ∧ (∀ x ∈ c, x.state = 0)

/-- What a reader may see later, given what was seen before: the run as a whole moves from waiting to running to final;
a final report is never replaced; each test moves forward. -/
def After (a b : Rep) : Prop :=
  rank a.state ≤ rank b.state ∧ rank a.state < 2 ∧ a.finish = false ∧
  (a.tests = [] ∨ List.Forall₂ Forward a.tests b.tests)

/-- The tests of a plan. -/
def Plan.list : Plan → List (Test × Fate)
  | .bad _ => []
  | .tests l => l

/-! ## Lemmas -/

/-- The version of a test that `addRun` and its caller leave. -/
def left (x : Test × Fate) : TestRep := (addRun x.1 freshTest x.2).2

theorem forward_refl (a : TestRep) : Forward a a := ⟨le_refl _, fun _ => .inl rfl⟩

theorem forall2_refl {α} {R : α → α → Prop} (h : ∀ a, R a a) (l : List α) : List.Forall₂ R l l := by
  induction l with
  | nil => exact .nil
  | cons a l ih => exact .cons (h a) ih

theorem judge_rank (t : Test) (r : Result) : rank (judge t r) = 2 ∧ judge t r ≠ 3 := by
  rcases judge_cases t r with h | h <;> rw [h] <;> decide

theorem judge_sound (t : Test) (r : Result) : Sound t ⟨judge t r, true, true, true, false, some r⟩ := by
  by_cases hm : Meets t r
  · exact .inr (.inr (.inl ⟨r, hm, by rw [(C50_pass_iff t r).1.2 hm]; rfl⟩))
  · exact .inr (.inr (.inr (.inl ⟨r, hm, by rw [(C50_pass_iff t r).2.2 hm]; rfl⟩)))

theorem left_spec (t : Test) (f : Fate) : rank (left (t, f)).state = 2 ∧ Sound t (left (t, f)) := by
  unfold left
  cases f with
  | early => exact ⟨rfl, .inr (.inr (.inr (.inr (by simp [addRun, freshTest, error]))))⟩
  | refused => exact ⟨rfl, .inr (.inr (.inr (.inr (by simp [addRun, freshTest, error]))))⟩
  | graded seen r saved =>
    cases saved with
    | false => exact ⟨rfl, .inr (.inr (.inr (.inr (by cases seen <;> simp [addRun, freshTest, error]))))⟩
    | true =>
      have : (addRun t freshTest (.graded seen r true)).2 = ⟨judge t r, true, true, true, false, some r⟩ := by
        cases seen <;> rfl
      rw [this]
      exact ⟨(judge_rank t r).1, judge_sound t r⟩

/-- The versions of a test passed to `Write`: running (if seen), then judged. -/
theorem written_spec (t : Test) (f : Fate) (v : TestRep) (h : v ∈ (addRun t freshTest f).1) :
    ∃ seen r saved, f = .graded seen r saved ∧
      (v = ⟨1, true, true, false, false, none⟩ ∨ v = ⟨judge t r, true, true, true, false, some r⟩) := by
  cases f with
  | early => cases h
  | refused => cases h
  | graded seen r saved =>
    refine ⟨seen, r, saved, rfl, ?_⟩
    cases seen
    · simp only [addRun, Bool.false_eq_true, if_false, List.nil_append, List.mem_singleton] at h
      right; rw [h]; rfl
    · simp only [addRun, if_true, List.singleton_append, List.mem_cons, List.not_mem_nil, or_false] at h
      rcases h with h | h
      · left; rw [h]; rfl
      · right; rw [h]; rfl

theorem left_graded (t : Test) (seen saved : Bool) (r : Result) :
    left (t, .graded seen r saved) = if saved then ⟨judge t r, true, true, true, false, some r⟩ else
      ⟨3, true, true, true, true, some r⟩ := by
  cases seen <;> cases saved <;> rfl

theorem written_sound (t : Test) (f : Fate) (v : TestRep) (h : v ∈ (addRun t freshTest f).1) :
    Sound t v ∧ Forward v (left (t, f)) ∧ (v.state = 1 ∨ rank v.state = 2) := by
  obtain ⟨seen, r, saved, rfl, rfl | rfl⟩ := written_spec t f v h
  · refine ⟨.inr (.inl rfl), ⟨?_, fun h => by simp [rank] at h⟩, .inl rfl⟩
    rw [(left_spec t _).1]; decide
  · refine ⟨judge_sound t r, ⟨?_, fun _ => ?_⟩, .inr (judge_rank t r).1⟩
    · rw [(left_spec t _).1]; exact (judge_rank t r).1.le
    · rw [left_graded]
      cases saved
      · exact .inr ⟨(judge_rank t r).2, rfl⟩
      · exact .inl rfl

theorem written_pairwise (t : Test) (f : Fate) : (addRun t freshTest f).1.Pairwise Forward := by
  cases f with
  | early => exact .nil
  | refused => exact .nil
  | graded seen r saved =>
    cases seen
    · simp [addRun]
    · simp only [addRun, if_true, List.singleton_append, List.pairwise_cons, List.mem_singleton, forall_eq,
        List.not_mem_nil, false_implies, implies_true, List.Pairwise.nil, and_true]
      refine ⟨?_, fun h => by simp [rank, running] at h⟩
      rw [(judge_rank t r).1]; decide

theorem fresh_forward (v : TestRep) : Forward freshTest v :=
  ⟨Nat.zero_le _, fun h => by simp [rank, freshTest, waiting] at h⟩

theorem loop_left (before : List TestRep) (l : List (Test × Fate)) : (loop before l).2 = before ++ l.map left := by
  induction l generalizing before with
  | nil => simp [loop]
  | cons x l ih => simp only [loop, ih, List.map_cons, List.append_assoc, List.singleton_append, left]

theorem loop_mem (before : List TestRep) (l : List (Test × Fate)) (w : Rep) (h : w ∈ (loop before l).1) :
    ∃ l1 t f l2 v, l = l1 ++ (t, f) :: l2 ∧ v ∈ (addRun t freshTest f).1 ∧
      w = ⟨1, false, false, before ++ (l1.map left ++ v :: l2.map fun _ => freshTest)⟩ := by
  induction l generalizing before with
  | nil => cases h
  | cons x l ih =>
    obtain ⟨t, f⟩ := x
    simp only [loop, List.mem_append, List.mem_map] at h
    rcases h with ⟨v, hv, rfl⟩ | h
    · exact ⟨[], t, f, l, v, rfl, hv, rfl⟩
    · obtain ⟨l1, t', f', l2, v, rfl, hv, rfl⟩ := ih _ h
      exact ⟨(t, f) :: l1, t', f', l2, v, rfl, hv, by simp [left]⟩

theorem fresh_forward_all (l : List (Test × Fate)) (vs : List TestRep) (h : vs.length = l.length) :
    List.Forall₂ Forward (l.map fun _ => freshTest) vs := by
  induction l generalizing vs with
  | nil => cases vs with
    | nil => exact .nil
    | cons _ _ => simp at h
  | cons x l ih => cases vs with
    | nil => simp at h
    | cons v vs => exact .cons (fresh_forward v) (ih vs (by simpa using h))

theorem loop_pairwise (before : List TestRep) (l : List (Test × Fate)) :
    (loop before l).1.Pairwise fun a b => List.Forall₂ Forward a.tests b.tests := by
  induction l generalizing before with
  | nil => exact .nil
  | cons x l ih =>
    obtain ⟨t, f⟩ := x
    simp only [loop]
    refine List.pairwise_append.mpr ⟨?_, ih _, ?_⟩
    · rw [List.pairwise_map]
      refine (written_pairwise t f).imp fun hab => ?_
      exact List.rel_append (forall2_refl forward_refl _) (.cons hab (forall2_refl forward_refl _))
    · intro a ha b hb
      obtain ⟨v, hv, rfl⟩ := List.mem_map.mp ha
      obtain ⟨l1, t', f', l2, v', rfl, hv', rfl⟩ := loop_mem _ _ _ hb
      rw [List.append_assoc, List.singleton_append]
      refine List.rel_append (forall2_refl forward_refl _) (.cons (written_sound t f v hv).2.1 ?_)
      exact fresh_forward_all _ _ (by simp)

theorem final_rank (l : List (Test × Outcome)) : rank (processTests l).2 = 2 := by
  obtain ⟨a, b, c⟩ := C49_final_state l
  by_cases hE : ∃ x ∈ l, Errored x
  · rw [a hE]; decide
  · by_cases hM : ∃ x ∈ l, Missed x
    · rw [b hE hM]; decide
    · rw [c hE hM]; decide

/-! ## C136 -/

/-- **C136** Whatever the tests do and whichever writes fail, the reports a client can see one after the other (`seen`)
only move forward. -/
theorem C136_progress (p : Plan) (seen : List Rep) (h : seen.Sublist (writes p)) : seen.Pairwise After := by
  refine List.Pairwise.sublist h ?_
  cases p with
  | bad skip =>
    simp only [writes, List.pairwise_cons, List.mem_singleton, forall_eq, List.not_mem_nil, false_implies, implies_true,
      List.Pairwise.nil, and_true]
    exact ⟨Nat.zero_le _, by decide, rfl, .inl rfl⟩
  | tests l =>
    simp only [writes, List.cons_append, List.nil_append, List.pairwise_cons]
    refine ⟨fun b _ => ⟨Nat.zero_le _, by decide, rfl, .inl rfl⟩, fun b hb => ⟨Nat.zero_le _, (by decide : 0 < 2), rfl, .inr ?_⟩, ?_⟩
    · refine fresh_forward_all _ _ ?_
      rcases List.mem_append.mp hb with hb | hb
      · obtain ⟨l1, t, f, l2, v, rfl, -, rfl⟩ := loop_mem _ _ _ hb; simp
      · rw [List.mem_singleton.mp hb, loop_left]; simp
    · refine List.pairwise_append.mpr ⟨?_, by simp, ?_⟩
      · refine (loop_pairwise [] l).imp_of_mem fun {a b} ha hb hab => ?_
        obtain ⟨l1, t, f, l2, v, -, -, rfl⟩ := loop_mem _ _ _ ha
        obtain ⟨l1', t', f', l2', v', -, -, rfl⟩ := loop_mem _ _ _ hb
        exact ⟨le_refl _, (by decide : 1 < 2), rfl, .inr hab⟩
      · intro a ha b hb
        rw [List.mem_singleton.mp hb, loop_left]
        obtain ⟨l1, t, f, l2, v, rfl, hv, rfl⟩ := loop_mem _ _ _ ha
        refine ⟨?_, (by decide : 1 < 2), rfl, .inr ?_⟩
        · show _ ≤ rank (processTests _).2
          rw [final_rank]; exact (by decide : 1 ≤ 2)
        · simp only [List.nil_append, List.map_append, List.map_cons]
          refine List.rel_append (forall2_refl forward_refl _) (.cons (written_sound t f v hv).2.1 ?_)
          exact fresh_forward_all _ _ (by simp)

theorem shape_of (a : List TestRep) (v : TestRep) (c : List TestRep) (ha : ∀ x ∈ a, rank x.state = 2)
    (hv : v.state = 1 ∨ rank v.state = 2) (hc : ∀ x ∈ c, x.state = 0) : Shape (a ++ v :: c) := by
  rcases hv with hv | hv
  · exact ⟨a, [v], c, by simp, ha, by simpa using hv, by simp, hc⟩
  · refine ⟨a ++ [v], [], c, by simp, ?_, by simp, by simp, hc⟩
    intro x hx
    rcases List.mem_append.mp hx with hx | hx
    · exact ha x hx
    · rw [List.mem_singleton.mp hx]; exact hv

/-- **C136** Every report: its finish time is there exactly when it is final; it lists no test yet, or all of them, each
filled in as its state says; the tests run one at a time, in order; and in a final report all are settled. -/
theorem C136_reports (p : Plan) (r : Rep) (h : r ∈ writes p) :
    (r.finish = true ↔ rank r.state = 2) ∧
    (r.tests = [] ∨ List.Forall₂ Sound (p.list.map Prod.fst) r.tests) ∧
    Shape r.tests ∧
    (r.state = 0 → ∀ x ∈ r.tests, x.state = 0) ∧
    (r.finish = true → r.tests.length = p.list.length ∧ ∀ x ∈ r.tests, rank x.state = 2) := by
  have fr : ∀ l : List (Test × Fate), List.Forall₂ Sound (l.map Prod.fst) (l.map fun _ => freshTest) := by
    intro l
    induction l with
    | nil => exact .nil
    | cons x l ih => exact .cons (.inl rfl) ih
  have lf : ∀ l : List (Test × Fate), List.Forall₂ Sound (l.map Prod.fst) (l.map left) := by
    intro l
    induction l with
    | nil => exact .nil
    | cons x l ih => exact .cons (left_spec x.1 x.2).2 ih
  have fs : ∀ (l : List (Test × Fate)), ∀ x ∈ l.map (fun _ => freshTest), x.state = 0 := by
    intro l x hx
    obtain ⟨_, _, rfl⟩ := List.mem_map.mp hx
    rfl
  have ls : ∀ (l : List (Test × Fate)), ∀ x ∈ l.map left, rank x.state = 2 := by
    intro l x hx
    obtain ⟨y, _, rfl⟩ := List.mem_map.mp hx
    exact (left_spec y.1 y.2).1
  cases p with
  | bad skip =>
    simp only [writes, List.mem_cons, List.not_mem_nil, or_false] at h
    rcases h with rfl | rfl
    · exact ⟨by decide, .inl rfl, ⟨[], [], [], rfl, by simp, by simp, by simp, by simp⟩, by simp, by simp⟩
    · refine ⟨by cases skip <;> decide, .inl rfl, ⟨[], [], [], rfl, by simp, by simp, by simp, by simp⟩, by simp, ?_⟩
      simp [Plan.list]
  | tests l =>
    simp only [writes, List.cons_append, List.nil_append, List.mem_cons, List.mem_append,
      List.not_mem_nil, or_false] at h
    rcases h with rfl | rfl | h | rfl
    · exact ⟨by decide, .inl rfl, ⟨[], [], [], rfl, by simp, by simp, by simp, by simp⟩, by simp, by simp⟩
    · exact ⟨by simp [rank, waiting], .inr (fr l), ⟨[], [], _, rfl, by simp, by simp, by simp, fs l⟩, fun _ => fs l, by simp⟩
    · obtain ⟨l1, t, f, l2, v, rfl, hv, rfl⟩ := loop_mem _ _ _ h
      obtain ⟨s1, -, s3⟩ := written_sound t f v hv
      refine ⟨by simp [rank], .inr ?_, shape_of _ _ _ (ls l1) s3 (fs l2), by simp, by simp⟩
      simp only [Plan.list, List.map_append, List.map_cons, List.nil_append]
      exact List.rel_append (lf l1) (.cons s1 (fr l2))
    · refine ⟨by simp [final_rank], .inr ?_, ?_, ?_, ?_⟩
      · rw [loop_left]; exact lf l
      · rw [loop_left]
        exact ⟨l.map left, [], [], by simp, ls l, by simp, by simp, by simp⟩
      · intro h0
        have := final_rank (l.map fun x => (x.1, x.2.outcome))
        simp only at h0
        rw [h0] at this
        simp [rank] at this
      · intro _
        rw [loop_left]
        exact ⟨by simp [Plan.list], ls l⟩

/-- **C136** If saving the request never fails, a test that a client has seen settled is never seen otherwise. -/
theorem C136_settled_stay_partial (p : Plan) (hk : ∀ x ∈ p.list, Kept x.2) (seen : List Rep) (h : seen.Sublist (writes p)) :
    seen.Pairwise fun a b => a.tests = [] ∨ List.Forall₂ (fun x y => rank x.state = 2 → y = x) a.tests b.tests := by
  refine (C136_progress p seen h).imp_of_mem fun {a b} ha hb hab => ?_
  rcases hab.2.2.2 with h0 | hf
  · exact .inl h0
  right
  have ha' := h.subset ha
  have hb' := h.subset hb
  -- in such a plan, a test that was run has an error only if it was refused, and then no result
  have noerr : ∀ r ∈ writes p, ∀ x ∈ r.tests, x.state = 3 → x.finish = false := by
    have hl : ∀ l : List (Test × Fate), (∀ x ∈ l, Kept x.2) → ∀ x ∈ l.map left, x.state = 3 → x.finish = false := by
      intro l hl x hx hs
      obtain ⟨⟨t, f⟩, hy, rfl⟩ := List.mem_map.mp hx
      cases f with
      | early => rfl
      | refused => rfl
      | graded sn r sv =>
        have := hl _ hy sn r sv rfl
        subst this
        rw [left_graded] at hs
        exact absurd hs (judge_rank t r).2
    intro r hr x hx hs
    cases p with
    | bad skip =>
      simp only [writes, List.mem_cons, List.not_mem_nil, or_false] at hr
      rcases hr with rfl | rfl <;> cases hx
    | tests l =>
      simp only [writes, List.cons_append, List.nil_append, List.mem_cons, List.mem_append,
        List.not_mem_nil, or_false] at hr
      rcases hr with rfl | rfl | hr | rfl
      · cases hx
      · obtain ⟨_, _, rfl⟩ := List.mem_map.mp hx; rfl
      · obtain ⟨l1, t, f, l2, v, rfl, hv, rfl⟩ := loop_mem _ _ _ hr
        simp only [List.nil_append, List.mem_append, List.mem_cons] at hx
        rcases hx with hx | rfl | hx
        · exact hl l1 (fun y hy => hk y (by simp [Plan.list, hy])) x hx hs
        · obtain ⟨sn, r, sv, rfl, rfl | rfl⟩ := written_spec _ _ _ hv
          · simp at hs
          · exact absurd hs (judge_rank t r).2
        · obtain ⟨_, _, rfl⟩ := List.mem_map.mp hx; rfl
      · rw [loop_left] at hx
        exact hl l hk x hx hs
  have key : ∀ xs ys : List TestRep, List.Forall₂ Forward xs ys →
      (∀ y ∈ ys, y.state = 3 → y.finish = false) →
      (∀ x ∈ xs, rank x.state = 2 → x.state ≠ 3 → x.finish = true) →
      List.Forall₂ (fun x y => rank x.state = 2 → y = x) xs ys := by
    intro xs ys hf
    induction hf with
    | nil => intros; exact .nil
    | @cons x y xs ys h1 h2 ih =>
      intro e1 e2
      refine .cons (fun hr => ?_) (ih (fun y hy => e1 y (by simp [hy])) (fun x hx => e2 x (by simp [hx])))
      rcases h1.2 hr with e | ⟨n, e⟩
      · exact e
      · have a1 := e2 x (by simp) hr n
        have a2 := e1 y (by simp) (by rw [e])
        rw [e] at a2
        simp only at a2
        rw [a1] at a2; cases a2
  refine key _ _ hf (noerr b hb') ?_
  intro x hx hr hn
  rcases (C136_reports p a ha').2.1 with h0 | hs
  · rw [h0] at hx; cases hx
  · obtain ⟨t, -, st⟩ : ∃ t ∈ p.list.map Prod.fst, Sound t x := by
      clear hr hn hf noerr hab
      generalize p.list.map Prod.fst = ts at *
      generalize a.tests = xs at *
      induction hs with
      | nil => cases hx
      | @cons t y ts ys h1 h2 ih =>
        rcases List.mem_cons.mp hx with rfl | hx
        · exact ⟨t, by simp, h1⟩
        · obtain ⟨t', m, s⟩ := ih hx
          exact ⟨t', by simp [m], s⟩
    rcases st with rfl | rfl | ⟨r, -, rfl⟩ | ⟨r, -, rfl⟩ | ⟨e, -⟩
    · simp [rank] at hr
    · simp [rank] at hr
    · rfl
    · rfl
    · exact absurd e hn

/-- **C136** The last report is the final one: its state and its tests' states are the ones of C49. -/
theorem C136_last (l : List (Test × Fate)) :
    ∃ r, (writes (.tests l)).getLast? = some r ∧ r.finish = true ∧
      r.state = (processTests (l.map fun x => (x.1, x.2.outcome))).2 ∧
      r.tests.map TestRep.state = (processTests (l.map fun x => (x.1, x.2.outcome))).1 := by
  refine ⟨⟨(processTests (l.map fun x => (x.1, x.2.outcome))).2, true, false, (loop [] l).2⟩, ?_, rfl, rfl, ?_⟩
  · unfold writes
    exact List.getLast?_concat
  · simp only [loop_left, List.nil_append, List.map_map]
    unfold processTests
    generalize passed = fs
    induction l generalizing fs with
    | nil => rfl
    | cons x l ih =>
      obtain ⟨t, f⟩ := x
      simp only [List.map_cons, runTests]
      rw [ih]
      congr 1
      cases f with
      | early => rfl
      | refused => rfl
      | graded sn r sv => cases sn <;> cases sv <;> rfl

/-- **C136** A report that says the run is running is written exactly if some test's run got as far as a result: a run all
of whose tests are refused goes from waiting to error. -/
theorem C136_running_shown (l : List (Test × Fate)) :
    (∃ r ∈ writes (.tests l), r.state = 1) ↔ ∃ x ∈ l, ∃ seen r saved, x.2 = .graded seen r saved := by
  constructor
  · rintro ⟨r, hr, hs⟩
    simp only [writes, List.cons_append, List.nil_append, List.mem_cons, List.mem_append,
      List.not_mem_nil, or_false] at hr
    rcases hr with rfl | rfl | hr | rfl
    · simp [waiting] at hs
    · simp [waiting] at hs
    · obtain ⟨l1, t, f, l2, v, rfl, hv, -⟩ := loop_mem _ _ _ hr
      obtain ⟨sn, r, sv, rfl, -⟩ := written_spec _ _ _ hv
      exact ⟨(t, .graded sn r sv), by simp, sn, r, sv, rfl⟩
    · have := final_rank (l.map fun x => (x.1, x.2.outcome))
      simp only at hs
      rw [hs] at this
      simp [rank] at this
  · rintro ⟨⟨t, f⟩, hx, sn, r, sv, rfl⟩
    have : ∀ before, ∃ w ∈ (loop before l).1, w.state = 1 := by
      induction l with
      | nil => cases hx
      | cons y l ih =>
        intro before
        rcases List.mem_cons.mp hx with rfl | hx
        · exact ⟨⟨running, false, false, before ++ ⟨judge t r, true, true, true, false, some r⟩ ::
            l.map fun _ => freshTest⟩, by cases sn <;> simp [loop, addRun, freshTest], rfl⟩
        · obtain ⟨w, hw, hs⟩ := ih hx (before ++ [left y])
          exact ⟨w, by simp only [loop, List.mem_append]; exact .inr hw, hs⟩
    obtain ⟨w, hw, hs⟩ := this []
    exact ⟨w, by simp [writes, hw], hs⟩

/-- The full claim: a test seen settled is never seen otherwise. -/
def SettledStay : Prop :=
  ∀ (p : Plan) (seen : List Rep), seen.Sublist (writes p) →
    seen.Pairwise fun a b => a.tests = [] ∨ List.Forall₂ (fun x y => rank x.state = 2 → y = x) a.tests b.tests

/-- Two tests; the request of the first cannot be saved after it has passed. -/
def unsaved : Plan := .tests [(⟨none⟩, .graded true ⟨"AC", 1⟩ false), (⟨none⟩, .graded false ⟨"AC", 1⟩ true)]

example : (writes unsaved).map (fun r => (r.state, r.tests.map TestRep.state)) =
    [(0, []), (0, [0, 0]), (1, [1, 0]), (1, [4, 0]), (1, [3, 4]), (3, [3, 4])] := by decide +kernel

/-- **C136** The full claim is false of the code: a test seen as passed is seen as an error later. -/
theorem C136_settled_may_change : ¬ SettledStay := by
  intro h
  have := h unsaved (writes unsaved) (List.Sublist.refl _)
  have h2 := List.pairwise_iff_getElem.mp this 3 4 (by decide) (by decide) (by decide)
  rcases h2 with h2 | h2
  · revert h2; decide +kernel
  · have e1 : ((writes unsaved)[3]'(by decide)).tests.map TestRep.state = [4, 0] := by decide +kernel
    have e2 : ((writes unsaved)[4]'(by decide)).tests.map TestRep.state = [3, 4] := by decide +kernel
    generalize ((writes unsaved)[3]'(by decide)).tests = xs at *
    generalize ((writes unsaved)[4]'(by decide)).tests = ys at *
    cases h2 with
    | nil => simp at e1
    | cons a b =>
      simp only [List.map_cons, List.cons.injEq] at e1 e2
      have := a (by rw [e1.1]; decide)
      rw [this, e1.1] at e2
      exact absurd e2.1 (by decide)

/-- The hypotheses of `C136_settled_stay_partial` are met by a run with all the ways a test can go but that one. -/
example : ∀ x ∈ (Plan.tests [(⟨none⟩, .early), (⟨none⟩, .refused), (⟨none⟩, .graded true ⟨"WA", 0⟩ true)]).list,
    Kept x.2 := by
  intro x hx
  simp only [Plan.list, List.mem_cons, List.not_mem_nil, or_false] at hx
  rcases hx with rfl | rfl | rfl <;> intro _ _ _ h <;> cases h
  rfl

end Quark.CI
