import Verif.Grade.Model

/-!
# The no-op runner

`NoopSandboxFixupResult` (/repo/runner/noop_sandbox.go:59-93), applied to what `Grade` (or, if grading fails,
`NewRunResult("JE", ...)`) returned (/repo/cmd/omegaup-runner/main.go:540-549).
-/

namespace Quark.Noop
open Quark.Grade (RunResult GroupResult CaseResult Problem)

/-- The inner loop (/repo/runner/noop_sandbox.go:80-92). `contest` is the contest score of the whole run. -/
def fixCase (contest : ℚ) (c : CaseResult) : CaseResult :=
  { c with score := 0 + c.maxScore, contestScore := c.maxScore * contest, verdict := .AC }

/-- The outer loop (/repo/runner/noop_sandbox.go:68-79). -/
def fixGroup (contest : ℚ) (g : GroupResult) : GroupResult :=
  { g with
    score := 0 + g.maxScore
    contestScore := g.maxScore * contest
    cases := g.cases.map (fixCase contest) }

/-- `NoopSandboxFixupResult` (/repo/runner/noop_sandbox.go:59-93). -/
def fixup (r : RunResult) : RunResult :=
  { r with
    verdict := .AC
    score := 1
    contestScore := 1 * r.maxScore
    groups := r.groups.map (fixGroup (1 * r.maxScore)) }

end Quark.Noop
