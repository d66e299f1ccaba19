import Verif.CI.Props

/-!
# Finished reports stay, and a commit is tested once at a time (C169, C170)

Both are about the directory of one commit (Verif/CI/Model), for every sequence of requests, steps of the worker, kills
and restarts.
-/

namespace Quark.CI

/-! ### C169: a finished report stays -/

/-- Nobody is about to write the report: no request looks, holds the stamp or waits, and the worker is not testing. -/
def Rests (s : Dir) (r : CIState) : Prop :=
  s.report = some r ∧ s.lookers = 0 ∧ s.stampers = 0 ∧ s.queue = 0 ∧ s.worker ≠ .working

/-- The claim (1): a report that is final is never replaced by another one. -/
def NeverReplaced : Prop :=
  ∀ (hist : List Act) (a : Act) (s t : Dir) (r : CIState), run init hist = some s → s.report = some r → Final r →
    step s a = some t → t.report = some r ∨ t.report = none

/-- The claim (2): a report that is final, the worker having nothing more to do with it, is still there after a kill, a
restart and a scan in which the cache does not refuse it. -/
def SurvivesRestart : Prop :=
  ∀ (hist scanning : List Act) (s t : Dir) (r : CIState), run init hist = some s → s.report = some r → Final r →
    s.worker = .idle → (∀ a ∈ scanning, ScanAct a ∧ a ≠ .scanRefuse) → run s ([.kill, .start] ++ scanning) = some t →
    t.worker = .idle → t.scanned = true → t.report = some r

/-- A second request that looked before the first one wrote its report starts over when the first is finished. -/
def startsOver : List Act :=
  [.start, .scan, .look, .look, .acquire, .firstWrite true, .take, .progress running, .finish passed true,
    .unstamp true, .cache, .acquire]

theorem C169_false : ¬ NeverReplaced := by
  intro h
  have := h startsOver (.firstWrite true) _ _ passed rfl (by decide) (by decide) rfl
  revert this
  decide

theorem C169_false_restart : ¬ SurvivesRestart := by
  intro h
  have := h [.start, .scan, .look, .acquire, .firstWrite true, .take, .abort skipped true]
    [.scan, .unlinkReport, .unlinkStamp, .endRemove] _ _ skipped rfl (by decide) (by decide) (by decide)
    (fun a ha => by
      simp only [List.mem_cons, List.not_mem_nil, or_false] at ha
      unfold ScanAct
      rcases ha with rfl | rfl | rfl | rfl <;> simp) rfl (by decide) (by decide)
  revert this
  decide

theorem step_rests {s t : Dir} {a : Act} {r : CIState} (hS : Rests s r) (hs : step s a = some t)
    (ha : a ≠ .unlinkReport) : Rests t r := by
  obtain ⟨dir, stamp, report, up, scanned, cached, lookers, stampers, queue, worker⟩ := s
  obtain ⟨h1, h2, h3, h4, h5⟩ := hS
  dsimp only at h1 h2 h3 h4 h5
  subst h1 h2 h3 h4
  cases a
  case unlinkReport => exact absurd rfl ha
  case unlinkStamp =>
    simp only [step] at hs
    split at hs
    case h_2 => cases hs
    case h_1 => split_ifs at hs; cases hs; exact ⟨rfl, rfl, rfl, rfl, by simp⟩
  case endRemove =>
    simp only [step] at hs
    split at hs
    case h_2 => cases hs
    case h_1 => split_ifs at hs; cases hs; exact ⟨rfl, rfl, rfl, rfl, by simp⟩
  all_goals
    simp only [step] at hs
    split_ifs at hs
  all_goals
    first
      | (exfalso; simp_all; done)
      | (cases hs; exact ⟨rfl, rfl, rfl, rfl, by first | exact h5 | decide | simp⟩)

/-- As far as it holds (1): from a state in which nobody is about to write it, a report stays as it is through every
sequence of requests, steps, kills and restarts, until a removal of the directory reaches it. -/
theorem C169_stays_partial (s t : Dir) (r : CIState) (acts : List Act) (hS : Rests s r)
    (hn : Act.unlinkReport ∉ acts) (hs : run s acts = some t) : Rests t r := by
  induction acts generalizing s with
  | nil => cases hs; exact hS
  | cons a as ih =>
    simp only [run, Option.bind_eq_some_iff] at hs
    obtain ⟨s1, h1, h2⟩ := hs
    simp only [List.mem_cons, not_or] at hn
    exact ih s1 (step_rests hS h1 (Ne.symm hn.1)) hn.2 h2

/-- The same with the stamp gone and no removal under way: what a run that was carried through leaves. -/
def Done (s : Dir) (r : CIState) : Prop :=
  Rests s r ∧ s.stamp = false ∧ ∀ a b, s.worker ≠ .removing a b

theorem step_done {s t : Dir} {a : Act} {r : CIState} (hD : Done s r) (hs : step s a = some t)
    (h1 : a ≠ .evict) (h2 : a ≠ .refuse) (h3 : a ≠ .scanRefuse) : Done t r := by
  obtain ⟨hS, hst, hw⟩ := hD
  have hu : a ≠ .unlinkReport := by
    rintro rfl
    simp only [step] at hs
    split at hs
    case h_2 => cases hs
    case h_1 h => exact hw _ _ h
  refine ⟨step_rests hS hs hu, ?_⟩
  obtain ⟨dir, stamp, report, up, scanned, cached, lookers, stampers, queue, worker⟩ := s
  obtain ⟨e1, e2, e3, e4, e5⟩ := hS
  dsimp only at e1 e2 e3 e4 e5 hst hw
  subst e1 e2 e3 e4 hst
  cases a
  case unlinkReport => exact absurd rfl hu
  case evict => exact absurd rfl h1
  case refuse => exact absurd rfl h2
  case scanRefuse => exact absurd rfl h3
  case unlinkStamp =>
    simp only [step] at hs
    split at hs
    case h_2 => cases hs
    case h_1 h => exact absurd rfl (hw _ _)
  case endRemove =>
    simp only [step] at hs
    split at hs
    case h_2 => cases hs
    case h_1 h => exact absurd rfl (hw _ _)
  all_goals
    simp only [step] at hs
    split_ifs at hs
  all_goals
    first
      | (exfalso; simp_all; done)
      | (cases hs; exact ⟨rfl, by first | exact hw | (intro a b; simp)⟩)

/-- As far as it holds (2): the report of a run that was carried through survives any number of kills and restarts,
unless the cache evicts or refuses it. -/
theorem C169_survives_restarts_partial (s t : Dir) (r : CIState) (acts : List Act) (hD : Done s r)
    (hn : ∀ a ∈ acts, a ≠ .evict ∧ a ≠ .refuse ∧ a ≠ .scanRefuse) (hs : run s acts = some t) : t.report = some r := by
  have : Done t r := by
    induction acts generalizing s with
    | nil => cases hs; exact hD
    | cons a as ih =>
      simp only [run, Option.bind_eq_some_iff] at hs
      obtain ⟨s1, g1, g2⟩ := hs
      obtain ⟨n1, n2, n3⟩ := hn a List.mem_cons_self
      exact ih s1 (step_done hD g1 n1 n2 n3) (fun b hb => hn b (List.mem_cons_of_mem _ hb)) g2
  exact this.1.1

/-- A run that is carried through ends so, when no other request is on its way. -/
theorem C169_carried_through (s t : Dir) (r : CIState) (h1 : s.worker = .working) (h2 : s.dir = true)
    (h3 : s.lookers = 0) (h4 : s.stampers = 0) (h5 : s.queue = 0)
    (hs : run s [.finish r true, .unstamp true, .cache] = some t) : Done t r := by
  obtain ⟨dir, stamp, report, up, scanned, cached, lookers, stampers, queue, worker⟩ := s
  dsimp only at h1 h2 h3 h4 h5
  subst h1 h2 h3 h4 h5
  cases up with
  | false => simp [run, step] at hs
  | true =>
    by_cases hr : r = passed ∨ r = failed ∨ r = error
    · simp [run, step, hr] at hs
      cases hs
      exact ⟨⟨rfl, rfl, rfl, rfl, by simp⟩, rfl, by simp⟩
    · simp [run, step, hr] at hs

/-- Where it fails (2): the report of a run that ends because the commit cannot be tested — skipped, or an error with
its settings — is removed by the next restart, as its stamp is never removed. -/
theorem C169_skipped_lost (s t u : Dir) (r : CIState) (scanning : List Act) (hist : List Act)
    (h0 : run init hist = some s) (h1 : s.stamp = true)
    (h2 : run s [.abort r true] = some t)
    (h3 : run t ([.kill, .start] ++ scanning) = some u) (ha : ∀ a ∈ scanning, ScanAct a) (hi : u.worker = .idle)
    (hsc : u.scanned = true) : u.report = none := by
  have ht : run init (hist ++ [.abort r true]) = some t := by rw [run_append, h0]; exact h2
  have hst : t.stamp = true := by
    simp only [run, Option.bind_eq_some_iff] at h2
    obtain ⟨x, hx, e⟩ := h2
    cases e
    simp only [step] at hx
    split_ifs at hx <;> cases hx <;> exact h1
  exact ((C51_scan_outcome _ scanning t u ht h3 ha hi hsc).1 hst).2.2.1

/-- Hypotheses met: a commit that is skipped, and its report is gone after a restart … -/
example : ∃ s t u, run init [.start, .scan, .look, .acquire, .firstWrite true, .take] = some s ∧ s.stamp = true ∧
    run s [.abort skipped true] = some t ∧ t.report = some skipped ∧
    run t ([.kill, .start] ++ [.scan, .unlinkReport, .unlinkStamp, .endRemove]) = some u ∧ u.worker = .idle ∧
    u.scanned = true ∧ u.report = none :=
  ⟨_, _, _, rfl, by decide, rfl, by decide, rfl, by decide, by decide, by decide⟩

/-- … a commit that is tested: two restarts, requests in between, the report is still the same … -/
example : ∃ s t u, run init goodRun = some s ∧ run s [.finish failed true, .unstamp true, .cache] = some t ∧
    Done t failed ∧ run t [.kill, .start, .scan, .kill, .start, .scan] = some u ∧ u.report = some failed := by
  refine ⟨_, _, _, rfl, rfl, ?_, rfl, by decide⟩
  exact C169_carried_through ((run init goodRun).getD init) _ _ rfl rfl rfl rfl rfl rfl

/-- … while one that is evicted is gone. -/
example : ∃ t, run init (goodRun ++ [.finish failed true, .unstamp true, .cache, .evict, .unlinkReport, .endRemove]) =
    some t ∧ t.report = none ∧ t.dir = false := ⟨_, rfl, by decide, by decide⟩

/-! ### C170: once at a time -/

/-- The requests that were accepted and are not finished: those that hold the stamp, those that wait, the one being
tested. -/
def accepted (s : Dir) : Nat :=
  s.stampers + s.queue + if s.worker = .working ∨ s.worker = .finished then 1 else 0

/-- The claim: at no time are two requests for the same commit accepted and unfinished. -/
def OnceAtATime : Prop := ∀ (hist : List Act) (s : Dir), run init hist = some s → accepted s ≤ 1

/-- A request that comes before the start-up scan reaches its directory loses its stamp to the scan. -/
def stampLostToScan : List Act := [.start, .look, .acquire, .scan, .unlinkStamp, .look, .acquire]

/-- A directory without a stamp or a report, left by a kill, is taken into the cache, and evicted while its commit is
being tested. -/
def stampLostToEviction : List Act :=
  [.start, .scan, .look, .kill, .start, .scan, .look, .acquire, .evict, .unlinkStamp, .look, .acquire]

theorem C170_false : ¬ OnceAtATime := fun h => absurd (h stampLostToScan _ rfl) (by decide)

theorem C170_false_each (hist : List Act) (hm : hist ∈ [stampLostToScan, stampLostToEviction]) :
    ∃ s, run init hist = some s ∧ accepted s = 2 := by
  simp only [List.mem_cons, List.not_mem_nil, or_false] at hm
  rcases hm with rfl | rfl
  · exact ⟨_, rfl, by decide⟩
  · exact ⟨_, rfl, by decide⟩

/-- A removal of the directory begins only when no accepted request is unfinished. -/
def Peaceful : Dir → List Act → Prop
  | _, [] => True
  | s, a :: as =>
    ((a = .scan ∨ a = .evict ∨ a = .refuse) → accepted s = 0) ∧ ∀ t, step s a = some t → Peaceful t as

/-- The invariant: the unfinished request has the stamp. -/
structure Holds (s : Dir) : Prop where
  one : accepted s ≤ 1
  stamp : accepted s = 1 → s.stamp = true
  removing : ∀ b, s.worker = .removing true b → accepted s = 0 ∧ s.stamp = true

theorem holds_init : Holds init := ⟨by decide, by decide, by simp [init]⟩

theorem holds_step {s t : Dir} {a : Act} (hH : Holds s)
    (hp : (a = .scan ∨ a = .evict ∨ a = .refuse) → accepted s = 0) (hs : step s a = some t) : Holds t := by
  obtain ⟨dir, stamp, report, up, scanned, cached, lookers, stampers, queue, worker⟩ := s
  obtain ⟨e1, e2, e3⟩ := hH
  simp only [accepted] at e1 e2 e3 hp
  cases a
  case unlinkReport =>
    simp only [step] at hs
    split at hs
    case h_2 => cases hs
    case h_1 a =>
      split_ifs at hs; cases hs
      simp at e1 e2
      refine ⟨by simpa [accepted] using e1, by simpa [accepted] using e2, ?_⟩
      intro b hb; cases hb
      simpa [accepted] using e3 true rfl
  case unlinkStamp =>
    simp only [step] at hs
    split at hs
    case h_2 => cases hs
    case h_1 a =>
      split_ifs at hs; cases hs
      have := (e3 _ rfl).1
      simp at this
      exact ⟨by simp [accepted, this], by simp [accepted, this], by simp⟩
  case endRemove =>
    simp only [step] at hs
    split at hs
    case h_2 => cases hs
    case h_1 a =>
      split_ifs at hs; cases hs
      simp at e1 e2
      exact ⟨by simpa [accepted] using e1, by simpa [accepted] using e2, by simp⟩
  all_goals
    simp only [step] at hs
    split_ifs at hs
  all_goals
    cases hs
    rcases worker with _ | ⟨_ | _, _ | _⟩ | _ | _ | _
  all_goals
    first
      | (exfalso; simp_all; done)
      | skip
  all_goals
    simp at e1 e2 e3 hp
    refine ⟨?_, ?_, ?_⟩ <;> simp_all [accepted] <;> first | omega | (intros; apply e2; omega)

/-- As far as it holds: when no removal of the directory begins while an accepted request is unfinished, there is never
more than one of them, and the stamp is there as long as there is one. -/
theorem C170_once_partial (hist : List Act) (s : Dir) (hp : Peaceful init hist) (hs : run init hist = some s) :
    accepted s ≤ 1 ∧ (accepted s = 1 → s.stamp = true) := by
  have key : ∀ (as : List Act) (x : Dir), Holds x → Peaceful x as → run x as = some s → Holds s := by
    intro as
    induction as with
    | nil => intro x hx _ h; cases h; exact hx
    | cons a as ih =>
      intro x hx hpx h
      simp only [run, Option.bind_eq_some_iff] at h
      obtain ⟨y, g1, g2⟩ := h
      exact ih y (holds_step hx hpx.1 g1) (hpx.2 y g1) g2
  have := key hist init holds_init hp hs
  exact ⟨this.one, this.stamp⟩

/-- Two requests at the same time, of which one is refused: the hypothesis holds, and the second request is not accepted. -/
example : ∃ s, run init [.start, .scan, .look, .look, .acquire, .acquire, .firstWrite true, .take] = some s ∧
    accepted s = 1 ∧ s.lookers = 0 ∧
    Peaceful init [.start, .scan, .look, .look, .acquire, .acquire, .firstWrite true, .take] := by
  refine ⟨_, rfl, by decide, by decide, ⟨fun _ => by decide, fun t ht => ?_⟩⟩
  cases ht
  refine ⟨fun _ => by decide, fun t ht => ?_⟩
  cases ht
  repeat' (first | trivial | (refine ⟨fun h => by simp at h, fun t ht => ?_⟩; cases ht))

/-- The condition is needed each time: a removal that begins with one accepted request and takes the stamp lets a second
one in, if the report is not there. -/
theorem C170_needed (s : Dir) (a : Act) (h1 : accepted s = 1) (h2 : s.stamp = true) (h3 : s.report = none)
    (h4 : s.dir = true) (h5 : s.up = true) (ha : a = .scan ∨ a = .evict ∨ a = .refuse) (t : Dir)
    (hs : step s a = some t) :
    ∃ u, run t [.unlinkStamp, .look, .acquire] = some u ∧ accepted u = 2 := by
  obtain ⟨dir, stamp, report, up, scanned, cached, lookers, stampers, queue, worker⟩ := s
  dsimp only at h2 h3 h4 h5
  subst h2 h3 h4 h5
  rcases ha with rfl | rfl | rfl
  all_goals
    simp only [step] at hs
    split_ifs at hs with g
    try (simp at g)
    try cases hs
    simp_all [run, step, accepted]
  all_goals omega

end Quark.CI
