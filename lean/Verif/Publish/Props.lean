import Verif.Publish.Model
import Verif.Filter.Props
import Verif.Float.Lemmas
import Mathlib.Data.List.Induction

/-!
# C95-C98: what is recorded and announced about finished runs
-/

namespace Quark.Publish

open Quark.Filter (Text Message Validated)
open Quark.Float

/-- The last of the runs whose result the database accepted that satisfies `p`. -/
def lastRecorded (p : Finished → Bool) (runs : List (Finished × Bool)) : Option Finished :=
  (((runs.filter (·.2)).map (·.1)).filter p).getLast?

theorem lastRecorded_snoc (p : Finished → Bool) (runs : List (Finished × Bool)) (r : Finished) (ok : Bool) :
    lastRecorded p (runs ++ [(r, ok)]) = if ok && p r then some r else lastRecorded p runs := by
  unfold lastRecorded
  cases ok <;> cases h : p r <;> simp [h]

theorem postProcess_snoc (cfg : Config) (s : State) (runs : List (Finished × Bool)) (x : Finished × Bool) :
    postProcess cfg s (runs ++ [x]) = process cfg (postProcess cfg s runs) x.1 x.2 := by
  simp [postProcess, List.foldl_append]

/-- C95: whatever runs finish in whatever order, and whichever statements fail, a row of the database is, in the end,
the result of the last finished run with that identifier whose statement succeeded: ready, with its verdict, running
time in milliseconds, memory, score and judge. The penalty is the running time of the last such run of a contest with
penalty type `runtime`, and otherwise what it was; who submitted it never changes; rows of runs that did not finish
are as they were, and no row is created. -/
theorem C95_recorded (cfg : Config) (s : State) (runs : List (Finished × Bool)) (id : Int) :
    (s.db id = none → (postProcess cfg s runs).db id = none) ∧
    (cfg.updateDatabase = false → (postProcess cfg s runs).db id = s.db id) ∧
    ∀ row, s.db id = some row → cfg.updateDatabase = true →
      ∃ row', (postProcess cfg s runs).db id = some row' ∧ row'.submitter = row.submitter ∧
      (match lastRecorded (fun r => r.id == id) runs with
        | none => row' = row
        | some r => row'.ready = true ∧ row'.verdict = r.verdict ∧ row'.runtime = r.time.mul (.fin 1000) ∧
            row'.memory = r.memory ∧ row'.score = fl r.score ∧ row'.judgedBy = r.judgedBy) ∧
      (match lastRecorded (fun r => r.id == id && r.penaltyType == "runtime".toList) runs with
        | none => row'.penalty = row.penalty
        | some r => row'.penalty = r.time.mul (.fin 1000)) := by
  induction runs using List.reverseRecOn with
  | nil =>
    refine ⟨fun h => h, fun _ => rfl, fun row h _ => ⟨row, h, rfl, ?_, ?_⟩⟩ <;> simp [lastRecorded]
  | append_singleton runs x ih =>
    obtain ⟨r, ok⟩ := x
    obtain ⟨ih1, ih2, ih3⟩ := ih
    rw [postProcess_snoc]
    simp only [process, lastRecorded_snoc]
    refine ⟨?_, ?_, ?_⟩
    · intro h
      have h' := ih1 h
      split
      · unfold updateDatabase
        split <;> simp [h']
      · exact h'
    · intro h
      simp only [h]
      exact ih2 h
    · intro row h hc
      obtain ⟨row', h1, h2, h3, h4⟩ := ih3 row h hc
      simp only [hc, if_true]
      cases ok with
      | false =>
        refine ⟨row', ?_, h2, ?_, ?_⟩
        · simp [updateDatabase, h1]
        · simpa using h3
        · simpa using h4
      | true =>
        by_cases hid : r.id = id
        · subst hid
          refine ⟨updateRow r row', by simp [updateDatabase, h1], ?_, ?_, ?_⟩
          · unfold updateRow; split <;> exact h2
          · simp only [Bool.true_and, beq_self_eq_true, if_true]
            unfold updateRow; split <;> simp
          · simp only [Bool.true_and, beq_self_eq_true]
            by_cases hp : r.penaltyType = "runtime".toList
            · rw [if_pos (by simpa using hp)]
              simp only [updateRow, if_pos hp]
            · rw [if_neg (by simpa using hp)]
              simp only [updateRow, if_neg hp]
              exact h4
        · refine ⟨row', ?_, h2, ?_, ?_⟩
          · have : id ≠ r.id := fun h => hid h.symm
            simp [updateDatabase, h1, this]
          · have : (r.id == id) = false := by simpa using hid
            simp only [this]; simpa using h3
          · have : (r.id == id) = false := by simpa using hid
            simp only [this]; simpa using h4

/-! ## C96: the contest score -/

theorem recorded_of_last {cfg : Config} {s : State} {runs : List (Finished × Bool)} {id : Int} {row : Row}
    (hc : cfg.updateDatabase = true) (h : s.db id = some row) :
    ∃ row', (postProcess cfg s runs).db id = some row' ∧
      match lastRecorded (fun r => r.id == id) runs with
      | none => row'.contestScore = row.contestScore
      | some r => row'.contestScore = recordedScore r := by
  induction runs using List.reverseRecOn with
  | nil => exact ⟨row, h, by simp [lastRecorded]⟩
  | append_singleton runs x ih =>
    obtain ⟨r, ok⟩ := x
    obtain ⟨row', h1, h2⟩ := ih
    rw [postProcess_snoc]
    simp only [process, lastRecorded_snoc, hc, if_true]
    cases ok with
    | false => exact ⟨row', by simp [updateDatabase, h1], by simpa using h2⟩
    | true =>
      by_cases hid : r.id = id
      · subst hid
        refine ⟨updateRow r row', by simp [updateDatabase, h1], ?_⟩
        simp only [Bool.true_and, beq_self_eq_true, if_true]
        unfold updateRow; split <;> rfl
      · have hne : id ≠ r.id := fun h => hid h.symm
        refine ⟨row', by simp [updateDatabase, h1, hne], ?_⟩
        have : (r.id == id) = false := by simpa using hid
        simp only [this]; simpa using h2

theorem eq_one_iff (x : F64) : x.eq (.fin 1) = true ↔ x = .fin 1 := by
  cases x with
  | fin q =>
    simp only [F64.eq, F64.le, Bool.and_eq_true, decide_eq_true_eq, F64.fin.injEq]
    constructor
    · rintro ⟨h1, h2⟩; linarith
    · rintro rfl; simp
  | inf b => cases b <;> simp [F64.eq, F64.le]
  | nan => simp [F64.eq, F64.le]

/-- C96, exactly what is recorded: the contest score of the last result, rounded to a float64, except that if the contest's
`partial_score` is 1 every score that does not round to exactly one point counts nothing. -/
theorem C96_contest_score (cfg : Config) (s : State) (runs : List (Finished × Bool)) (id : Int) (row : Row)
    (h : s.db id = some row) (hc : cfg.updateDatabase = true) (r : Finished)
    (hr : lastRecorded (fun r => r.id == id) runs = some r) :
    ∃ row', (postProcess cfg s runs).db id = some row' ∧
      (r.partialScore ≠ 1 ∨ fl r.contestScore = .fin 1 → row'.contestScore = fl r.contestScore) ∧
      (r.partialScore = 1 → fl r.contestScore ≠ .fin 1 → row'.contestScore = .fin 0) := by
  obtain ⟨row', h1, h2⟩ := recorded_of_last (runs := runs) hc h
  rw [hr] at h2
  refine ⟨row', h1, ?_, ?_⟩
  · intro h3
    rw [h2]
    unfold recordedScore
    simp only
    rw [if_neg]
    rintro ⟨h4, h5⟩
    rcases h3 with h3 | h3
    · exact h3 h4
    · rw [(eq_one_iff _).mpr h3] at h5; cases h5
  · intro h3 h4
    rw [h2]
    unfold recordedScore
    simp only
    rw [if_pos]
    refine ⟨h3, ?_⟩
    by_contra hn
    exact h4 ((eq_one_iff _).mp (by simpa using hn))

deriving instance DecidableEq for Filter.Message

/-- What one would want: a run that earned all the points of its problem is recorded with all of them. -/
def FullMarks : Prop := ∀ (cfg : Config) (s : State) (run : Finished) (row : Row) (points : ℚ),
  cfg.updateDatabase = true → s.db run.id = some row → 0 < points → fl points = .fin points →
  run.contestScore = points → ∃ row', (postProcess cfg s [(run, true)]).db run.id = some row' ∧
    row'.contestScore = .fin points

/-- A run that solved a problem worth `points` points, in a contest with this `partial_score`. -/
def solved (points : ℚ) (partialScore : Int) : Finished where
  id := 7
  guid := "0123".toList
  contest := some "c".toList
  problemset := some 3
  problem := "p".toList
  language := "cpp".toList
  verdict := "AC".toList
  time := .fin (1 / 4)
  memory := 1048576
  score := 1
  contestScore := points
  judgedBy := "runner".toList
  penaltyType := "runtime".toList
  partialScore := partialScore

def newRow : Row where
  ready := false
  verdict := []
  runtime := .fin 0
  penalty := .fin 0
  memory := 0
  score := .fin 0
  contestScore := .fin 0
  judgedBy := []
  submitter := some ("user".toList, .fin 10, .fin 1500000000)

theorem fl_100 : fl 100 = .fin 100 := by decide +kernel

/-- C96 fails: the score is compared with one point instead of the problem's points, so solving a problem worth 100
points in a contest with `partial_score = 1` is recorded as nothing. -/
theorem C96_full_marks_lost : ¬ FullMarks := by
  intro h
  obtain ⟨row', h1, h2⟩ := h ⟨true, true⟩ { db := fun id => if id = 7 then some newRow else none } (solved 100 1)
    newRow 100 rfl (by simp [solved]) (by norm_num) fl_100 rfl
  obtain ⟨row'', h3, -, h4⟩ := C96_contest_score ⟨true, true⟩
    { db := fun id => if id = 7 then some newRow else none } [(solved 100 1, true)] 7 newRow (by simp) rfl
    (solved 100 1) (by simp [lastRecorded, solved])
  have h5 := h4 rfl (by simp only [solved, fl_100]; simp)
  have h6 : (solved 100 1).id = 7 := rfl
  rw [h6, h3] at h1
  cases h1
  rw [h5] at h2
  simp at h2

/-- C96 for problems worth one point, and for contests whose `partial_score` is not 1: full marks are recorded. -/
theorem C96_full_marks_partial (cfg : Config) (s : State) (run : Finished) (row : Row) (points : ℚ)
    (hc : cfg.updateDatabase = true) (hrow : s.db run.id = some row) (hfl : fl points = .fin points)
    (hp : run.contestScore = points) (hok : points = 1 ∨ run.partialScore ≠ 1) :
    ∃ row', (postProcess cfg s [(run, true)]).db run.id = some row' ∧ row'.contestScore = .fin points := by
  obtain ⟨row', h1, h2, -⟩ := C96_contest_score cfg s [(run, true)] run.id row hrow hc run
    (by simp [lastRecorded])
  refine ⟨row', h1, ?_⟩
  rw [h2, hp, hfl]
  rcases hok with h | h
  · right; rw [hp, hfl, h]
  · exact .inl h

/-! ## C97: what is announced -/

/-- What one would want: what is announced about a run is what is recorded about it. -/
def Agrees (a : Announcement) (row : Row) : Prop :=
  a.verdict = row.verdict ∧ a.runtime.mul (.fin 1000) = row.runtime ∧ a.penalty = row.penalty ∧
    a.memory = row.memory ∧ a.score = row.score ∧ a.contestScore = row.contestScore

/-- The conditions under which a finished run is announced: it is not an ephemeral run, its row and submitter are found,
and all the numbers are finite. -/
def Announceable (run : Finished) (row : Row) (user : Text) (delay time : F64) : Prop :=
  run.id ≠ 0 ∧ row.submitter = some (user, delay, time) ∧ (∃ q, run.time = .fin q) ∧ (∃ q, row.penalty = .fin q) ∧
    (∃ q, fl run.score = .fin q) ∧ (∃ q, fl run.contestScore = .fin q) ∧ (∃ q, delay = .fin q) ∧ ∃ q, time = .fin q

theorem finite_iff (x : F64) : finite x = true ↔ ∃ q, x = .fin q := by cases x <;> simp [finite]

theorem broadcastRun_some (run : Finished) (db : Db) (m : Message) (a : Announcement) :
    broadcastRun run db = some (m, a) ↔ ∃ row user delay time, db run.id = some row ∧
      Announceable run row user delay time ∧ a = announcement run row user delay time ∧
      m = { contest := run.contest.getD [], problemset := run.problemset.getD 0, problem := run.problem,
            user := user, isPublic := false } := by
  unfold broadcastRun
  by_cases hid : run.id = 0
  · rw [if_pos hid]
    constructor
    · intro h; cases h
    · rintro ⟨row, user, delay, time, -, h, -⟩; exact absurd hid h.1
  rw [if_neg hid]
  cases hrow : db run.id with
  | none =>
    constructor
    · intro h; cases h
    · rintro ⟨row, user, delay, time, h, -⟩; cases h
  | some row =>
    simp only
    cases hsub : row.submitter with
    | none =>
      constructor
      · intro h; cases h
      · rintro ⟨row', user, delay, time, h, h', -⟩
        cases h
        rw [h'.2.1] at hsub; cases hsub
    | some p =>
      obtain ⟨user, delay, time⟩ := p
      simp only
      split
      · rename_i hfin
        simp only [Bool.and_eq_true, announcement, finite_iff] at hfin
        constructor
        · intro h
          cases h
          exact ⟨row, user, delay, time, rfl, ⟨hid, hsub, hfin.1.1.1.1.1, hfin.1.1.1.1.2, hfin.1.1.1.2, hfin.1.1.2,
            hfin.1.2, hfin.2⟩, rfl, rfl⟩
        · rintro ⟨row', user', delay', time', h1, h2, rfl, rfl⟩
          cases h1
          have := h2.2.1
          rw [hsub] at this
          cases this
          rfl
      · rename_i hfin
        constructor
        · intro h; cases h
        · rintro ⟨row', user', delay', time', h1, h2, -⟩
          cases h1
          exfalso
          apply hfin
          have := h2.2.1
          rw [hsub] at this
          cases this
          simp only [Bool.and_eq_true, announcement, finite_iff]
          exact ⟨⟨⟨⟨⟨h2.2.2.1, h2.2.2.2.1⟩, h2.2.2.2.2.1⟩, h2.2.2.2.2.2.1⟩, h2.2.2.2.2.2.2.1⟩, h2.2.2.2.2.2.2.2⟩

/-- C97: with every finished run at most one message is sent, right after the database is updated, and exactly one if the
run can be announced. The announcement agrees with the row it was recorded in (in particular the penalty is the recorded
one), and names the submission and the user who sent it; the contest score agrees exactly when it was not withheld. -/
theorem C97_announced_partial (cfg : Config) (hu : cfg.updateDatabase = true) (hb : cfg.sendBroadcast = true) (s : State)
    (runs : List (Finished × Bool)) (run : Finished) :
    let s' := postProcess cfg s (runs ++ [(run, true)])
    ∃ l, s'.sent = (postProcess cfg s runs).sent ++ l ∧ l.length ≤ 1 ∧
      (∀ row user delay time, s'.db run.id = some row → Announceable run row user delay time → l ≠ []) ∧
      ∀ m a, (m, a) ∈ l → ∃ row user delay time, s'.db run.id = some row ∧ Announceable run row user delay time ∧
        a.verdict = row.verdict ∧ a.runtime.mul (.fin 1000) = row.runtime ∧ a.penalty = row.penalty ∧
        a.memory = row.memory ∧ a.score = row.score ∧ a.user = user ∧ a.guid = run.guid ∧ a.problem = run.problem ∧
        a.contest = run.contest ∧ a.problemset = run.problemset ∧ a.language = run.language ∧
        a.submitDelay = delay ∧ a.time = time ∧ a.status = ['r', 'e', 'a', 'd', 'y'] ∧
        (Agrees a row ↔ run.partialScore ≠ 1 ∨ fl run.contestScore = .fin 1 ∨ fl run.contestScore = .fin 0) := by
  intro s'
  have hs' : s' = process cfg (postProcess cfg s runs) run true := postProcess_snoc ..
  refine ⟨(broadcastRun run s'.db).toList, ?_, ?_, ?_, ?_⟩
  · rw [hs']; simp [process, hb, hu]
  · cases broadcastRun run s'.db <;> simp
  · intro row user delay time hrow ha
    have := (broadcastRun_some run s'.db _ _).mpr ⟨row, user, delay, time, hrow, ha, rfl, rfl⟩
    rw [this]; simp
  · intro m a hm
    have hsome : broadcastRun run s'.db = some (m, a) := by simpa using hm
    obtain ⟨row, user, delay, time, hrow, ha, rfl, rfl⟩ := (broadcastRun_some _ _ _ _).mp hsome
    obtain ⟨row0, h0, rfl⟩ : ∃ row0, (postProcess cfg s runs).db run.id = some row0 ∧ updateRow run row0 = row := by
      rw [hs'] at hrow
      simpa [process, hu, updateDatabase] using hrow
    refine ⟨_, user, delay, time, hrow, ha, ?_⟩
    have hup : (updateRow run row0).verdict = run.verdict ∧ (updateRow run row0).runtime = run.time.mul (.fin 1000) ∧
        (updateRow run row0).memory = run.memory ∧ (updateRow run row0).score = fl run.score ∧
        (updateRow run row0).contestScore = recordedScore run := by
      unfold updateRow; split <;> simp
    obtain ⟨h1, h2, h3, h4, h5⟩ := hup
    have hst : "ready".toList = ['r', 'e', 'a', 'd', 'y'] := by decide +kernel
    simp only [Agrees, announcement, h1, h2, h3, h4, h5, hst, true_and]
    unfold recordedScore
    simp only
    split
    · rename_i hc
      have : fl run.contestScore ≠ .fin 1 := fun h => by
        rw [(eq_one_iff _).mpr h] at hc; cases hc.2
      simp [hc.1, this]
    · rename_i hc
      refine ⟨fun _ => ?_, fun _ => rfl⟩
      by_cases hp : run.partialScore = 1
      · right; left
        rw [← eq_one_iff]
        by_contra hn
        exact hc ⟨hp, by simpa using hn⟩
      · exact .inl hp

/-- C97 fails for contest scores: half of a problem solved in a contest with `partial_score = 1` is announced with its
score and recorded with nothing. -/
theorem C97_score_disagrees : ∃ (cfg : Config) (s : State) (run : Finished) (m : Message) (a : Announcement) (row : Row),
    (postProcess cfg s [(run, true)]).sent = [(m, a)] ∧ (postProcess cfg s [(run, true)]).db run.id = some row ∧
    ¬ Agrees a row := by
  refine ⟨⟨true, true⟩, { db := fun id => if id = 7 then some newRow else none }, solved (1 / 2) 1,
    ⟨"c".toList, 3, "p".toList, "user".toList, false⟩, announcement (solved (1 / 2) 1)
      (updateRow (solved (1 / 2) 1) newRow) "user".toList (.fin 10) (.fin 1500000000),
    updateRow (solved (1 / 2) 1) newRow, ?_, ?_, ?_⟩
  · decide +kernel
  · decide +kernel
  · have : (announcement (solved (1 / 2) 1) (updateRow (solved (1 / 2) 1) newRow) "user".toList (.fin 10)
        (.fin 1500000000)).contestScore ≠ (updateRow (solved (1 / 2) 1) newRow).contestScore := by decide +kernel
    exact fun h => this h.2.2.2.2.2

/-- A solved problem worth one point, and one worth 100 in an ordinary contest, are recorded and announced alike. -/
def sampleState : State :=
  postProcess ⟨true, true⟩ { db := fun id => if id = 7 then some newRow else none }
    [(solved 1 1, true), (solved 100 0, true)]

example : let s := sampleState
    (s.db 7).map (·.contestScore) = some (.fin 100) ∧ s.sent.map (·.2.contestScore) = [.fin 1, .fin 100] ∧
    s.sent.map (·.2.penalty) = [.fin 250, .fin 250] ∧ (s.db 7).map (·.runtime) = some (.fin 250) := by
  decide +kernel

/-! ## C98: who is told -/

/-- C98: a message about a finished run reaches only administrators, the user who submitted it and those who
administer its problem, contest or problemset. (`""` and `0` stand for no contest and no problemset: nobody administers
them.) -/
theorem C98_private (run : Finished) (db : Db) (m : Message) (a : Announcement) (row : Row) (user : Text)
    (delay time : F64) (hsent : broadcastRun run db = some (m, a)) (hrow : db run.id = some row)
    (hsub : row.submitter = some (user, delay, time)) (huser : user ≠ []) (filters : Text) (v : Validated)
    (sub : Filter.Subscriber) (hnew : Filter.newSubscriber filters (some v) = .ok sub)
    (hc0 : [] ∉ v.contestAdmin) (hp0 : 0 ∉ v.problemsetAdmin) (hacc : sub.accepts m = true) :
    v.admin = true ∨ v.user = user ∨ run.problem ∈ v.problemAdmin ∨ (∃ c ∈ v.contestAdmin, run.contest = some c) ∨
      ∃ p ∈ v.problemsetAdmin, run.problemset = some p := by
  obtain ⟨row', user', delay', time', h1, h2, -, rfl⟩ := (broadcastRun_some _ _ _ _).mp hsent
  rw [hrow] at h1
  cases h1
  have := h2.2.1
  rw [hsub] at this
  cases this
  rcases Filter.C40_entitled_partial filters v sub _ hnew (fun h => huser h.2) hacc with h | h | h | h | h | h
  · exact .inl h
  · cases h
  · exact .inr (.inl h.2.symm)
  · exact .inr (.inr (.inl h))
  · refine .inr (.inr (.inr (.inl ?_)))
    cases hc : run.contest with
    | none => simp [hc] at h; exact absurd h hc0
    | some c => exact ⟨c, by simpa [hc] using h, rfl⟩
  · refine .inr (.inr (.inr (.inr ?_)))
    cases hc : run.problemset with
    | none => simp [hc] at h; exact absurd h hp0
    | some p => exact ⟨p, by simpa [hc] using h, rfl⟩

/-- C98, the other way: the user who submitted the run, subscribed to their own events, is told. -/
theorem C98_submitter_told (run : Finished) (db : Db) (m : Message) (a : Announcement) (row : Row) (user : Text)
    (delay time : F64) (hsent : broadcastRun run db = some (m, a)) (hrow : db run.id = some row)
    (hsub : row.submitter = some (user, delay, time)) (hname : '/' ∉ user ∧ ',' ∉ user) (v : Validated)
    (hv : v.user = user) (sub : Filter.Subscriber)
    (hnew : Filter.newSubscriber ("/user/".toList ++ user) (some v) = .ok sub) : sub.accepts m = true := by
  obtain ⟨row', user', delay', time', h1, h2, -, rfl⟩ := (broadcastRun_some _ _ _ _).mp hsent
  rw [hrow] at h1
  cases h1
  have := h2.2.1
  rw [hsub] at this
  cases this
  refine (Filter.C40_exact _ v sub _ hnew).mpr ⟨["/user/".toList ++ user], rfl, ?_, _, List.mem_singleton.mpr rfl,
    .user user, .user user hname.1, ?_, trivial⟩
  · intro t ht
    rw [List.mem_singleton.mp ht, List.mem_append]
    rintro (h | h)
    · revert h; decide
    · exact hname.2 h
  · simp [Filter.Wanted, hv]

/-- The message of `solved` reaches its submitter and an administrator of the contest, not somebody else. -/
example : ∃ m a, broadcastRun (solved 100 0) (fun id => if id = 7 then some newRow else none) = some (m, a) ∧
    (∃ s, Filter.newSubscriber "/contest/c".toList (some { user := "admin".toList, contestAdmin := ["c".toList] }) =
      .ok s ∧ s.accepts m = true) ∧
    (∃ s, Filter.newSubscriber "/contest/c,/user/user".toList (some { user := "other".toList }) = .ok s ∧
      s.accepts m = false) := by
  refine ⟨⟨"c".toList, 3, "p".toList, "user".toList, false⟩, _, (broadcastRun_some _ _ _ _).mpr
    ⟨newRow, "user".toList, .fin 10, .fin 1500000000, by simp [solved], ?_, rfl, rfl⟩, ⟨_, rfl, ?_⟩, ⟨_, rfl, ?_⟩⟩
  · exact ⟨by decide, rfl, ⟨_, rfl⟩, ⟨_, rfl⟩, ⟨1, by decide +kernel⟩, ⟨100, fl_100⟩, ⟨_, rfl⟩, ⟨_, rfl⟩⟩
  · decide
  · decide

/-- The hypotheses of `C98_private` hold of that run and its submitter. -/
example : ∃ m a sub, broadcastRun (solved 100 0) (fun id => if id = 7 then some newRow else none) = some (m, a) ∧
    newRow.submitter = some ("user".toList, .fin 10, .fin 1500000000) ∧
    Filter.newSubscriber "/contest/c,/user/user".toList (some { user := "user".toList }) = .ok sub ∧
    sub.accepts m = true := by
  refine ⟨⟨"c".toList, 3, "p".toList, "user".toList, false⟩, _, _, (broadcastRun_some _ _ _ _).mpr
    ⟨newRow, "user".toList, .fin 10, .fin 1500000000, by simp [solved], ?_, rfl, rfl⟩, rfl, rfl, by decide⟩
  exact ⟨by decide, rfl, ⟨_, rfl⟩, ⟨_, rfl⟩, ⟨1, by decide +kernel⟩, ⟨100, fl_100⟩, ⟨_, rfl⟩, ⟨_, rfl⟩⟩

end Quark.Publish
