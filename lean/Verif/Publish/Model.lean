import Verif.Filter.Model
import Verif.Float.Model

/-!
# Publishing the results of finished runs

`updateDatabase`, `broadcastRun` and `runPostProcessor`
(/repo/cmd/omegaup-grader/frontend_handler.go:63-230): what the grader writes into the database and announces to
the broadcaster for every run the post-processor hands it.

Simplifications. The `Runs` table is a map from identifiers to rows; a row holds the parameters of the statement, so the
conversions of the column types are not modelled; the columns of the tables joined with it are part of the row. Whether
the statement succeeds is up to the environment. Requests to the broadcaster are recorded when they are sent, whatever
the reply. `RunInfo.PartialScore` is declared as a `bool` (/repo/grader/queue.go:282) but used as the integer column
`Contests.partial_score` (cmd/omegaup-grader/frontend_handler.go:69, 341), so the pinned commit does not type-check; the model follows the
uses. The results are those of an upload, so the scores are never nil.
-/

namespace Quark.Publish

open Quark.Filter (Text Message)
open Quark.Float

/-- The fields of `RunInfo` and of its `Run` and `Result` (/repo/grader/queue.go:270-286) that are published. -/
structure Finished where
  id : Int
  guid : Text
  contest : Option Text
  problemset : Option Int
  problem : Text
  language : Text
  verdict : Text
  /-- seconds -/
  time : F64
  memory : Int
  score : ℚ
  contestScore : ℚ
  judgedBy : Text
  penaltyType : Text
  partialScore : Int

/-- A row of `Runs`, with the columns of `Submissions` and `Identities` joined with it
(cmd/omegaup-grader/frontend_handler.go:174-192). -/
structure Row where
  /-- `status = 'ready'` -/
  ready : Bool
  verdict : Text
  runtime : F64
  penalty : F64
  memory : Int
  score : F64
  contestScore : F64
  judgedBy : Text
  /-- `username`, `submit_delay` and `UNIX_TIMESTAMP(r.time)`; `none` if the joins find nothing -/
  submitter : Option (Text × F64 × F64)
  deriving DecidableEq

abbrev Db := Int → Option Row

/-- cmd/omegaup-grader/frontend_handler.go:68-71: the contest score that is written. -/
def recordedScore (run : Finished) : F64 :=
  let contestScore := fl run.contestScore
  if run.partialScore = 1 ∧ contestScore.eq (.fin 1) = false then .fin 0 else contestScore

/-- cmd/omegaup-grader/frontend_handler.go:72-113: what the statement does to the row. -/
def updateRow (run : Finished) (row : Row) : Row :=
  if run.penaltyType = "runtime".toList then
    { row with
      ready := true, verdict := run.verdict, runtime := run.time.mul (.fin 1000)
      penalty := run.time.mul (.fin 1000), memory := run.memory, score := fl run.score
      contestScore := recordedScore run, judgedBy := run.judgedBy }
  else
    { row with
      ready := true, verdict := run.verdict, runtime := run.time.mul (.fin 1000), memory := run.memory
      score := fl run.score, contestScore := recordedScore run, judgedBy := run.judgedBy }

/-- cmd/omegaup-grader/frontend_handler.go:63-114: `updateDatabase`. `ok` says whether the statement succeeds; an error is only
logged. -/
def updateDatabase (run : Finished) (ok : Bool) (db : Db) : Db :=
  if ok then fun id => if id = run.id then (db id).map (updateRow run) else db id else db

/-- cmd/omegaup-grader/frontend_handler.go:133-153: what subscribers are told about the run. -/
structure Announcement where
  user : Text
  contest : Option Text
  problemset : Option Int
  problem : Text
  guid : Text
  runtime : F64
  penalty : F64
  memory : Int
  score : F64
  contestScore : F64
  status : Text
  verdict : Text
  submitDelay : F64
  time : F64
  language : Text
  deriving DecidableEq

/-- `json.Marshal` refuses infinities and NaN. -/
def finite : F64 → Bool
  | .fin _ => true
  | _ => false

/-- cmd/omegaup-grader/frontend_handler.go:154-202: the announcement built from the run and its row. -/
def announcement (run : Finished) (row : Row) (user : Text) (delay time : F64) : Announcement where
  user := user
  contest := run.contest
  problemset := run.problemset
  problem := run.problem
  guid := run.guid
  runtime := run.time
  penalty := row.penalty
  memory := run.memory
  score := fl run.score
  contestScore := fl run.contestScore
  status := "ready".toList
  verdict := run.verdict
  submitDelay := delay
  time := time
  language := run.language

/-- cmd/omegaup-grader/frontend_handler.go:116-210: `broadcastRun`, the message sent to the broadcaster if any. -/
def broadcastRun (run : Finished) (db : Db) : Option (Message × Announcement) :=
  if run.id = 0 then none
  else match db run.id with
    | none => none
    | some row =>
      match row.submitter with
      | none => none
      | some (user, delay, time) =>
        let a := announcement run row user delay time
        if finite a.runtime && finite a.penalty && finite a.score && finite a.contestScore && finite a.submitDelay &&
            finite a.time then
          some ({ contest := run.contest.getD [], problemset := run.problemset.getD 0, problem := run.problem,
                  user := user, isPublic := false }, a)
        else none

/-- The configuration (/repo/common/context.go: `GraderV1Config`). -/
structure Config where
  updateDatabase : Bool
  sendBroadcast : Bool

structure State where
  db : Db
  sent : List (Message × Announcement) := []

/-- cmd/omegaup-grader/frontend_handler.go:217-229: one iteration of the loop of `runPostProcessor`. -/
def process (cfg : Config) (s : State) (run : Finished) (ok : Bool) : State :=
  let db := if cfg.updateDatabase then updateDatabase run ok s.db else s.db
  let sent := if cfg.sendBroadcast then (broadcastRun run db).toList else []
  { db := db, sent := s.sent ++ sent }

/-- cmd/omegaup-grader/frontend_handler.go:212-230: `runPostProcessor` over the runs it is given, each with whether the database accepts
the statement. -/
def postProcess (cfg : Config) (s : State) (runs : List (Finished × Bool)) : State :=
  runs.foldl (fun s p => process cfg s p.1 p.2) s

end Quark.Publish
