import Verif.Grade.Props

namespace Quark.Grade
open Quark.MetaFile (Verdict worse worse_rank rank_inj)
open Quark.Validator (Env Settings sampleEnv)

/-! ### Sample problems and the counterexamples to C14 and C15 -/

/-- A contestant process with the given verdict. -/
def proc (v : Verdict) (wall : ℚ := 1) : Proc :=
  { name := "Main", kind := .contestant, result := { verdict := v, time := 1/2, wallTime := wall } }

/-- A case with expected output "1". -/
def sampleCase (name : String) (w : ℚ) (v : Verdict) (out : Option (List UInt8)) : Case :=
  { name, weight := w, procs := [proc v], contestantOut := out, expectedOut := some [0x31] }

/-- Two groups: two correct cases; a wrong one. -/
def sample : Problem :=
  { maxScore := 100, wallLimit := 60, validator := ⟨"token", none⟩
    compiles := [{ name := "Main", err := false, verdict := .OK }]
    groups :=
      [{ name := "a", cases := [sampleCase "a.1" 1 .OK (some [0x31]), sampleCase "a.2" 2 .OK (some [0x31, 0x0A])] },
       { name := "b", cases := [sampleCase "b" 1 .OK (some [0x32])] }] }

theorem sample_hyps : Compiles sample ∧ FromSandbox sample ∧ Openable sample ∧ NonNegative sample ∧
    0 < weightSum sample := by
  refine ⟨⟨rfl, ?_⟩, ?_, ?_, ⟨by decide, ?_⟩, by decide +kernel⟩
  · intro b hb
    simp only [sample, List.mem_singleton] at hb
    subst hb; exact ⟨rfl, rfl⟩
  · intro g hg c hc r hr
    simp only [sample, List.mem_cons, List.not_mem_nil, or_false] at hg
    rcases hg with rfl | rfl <;> simp only [List.mem_cons, List.not_mem_nil, or_false] at hc <;>
      [rcases hc with rfl | rfl; subst hc] <;> simp only [sampleCase, List.mem_singleton] at hr <;>
      subst hr <;> simp [SandboxVerdict, proc]
  · intro g hg c hc
    simp only [sample, List.mem_cons, List.not_mem_nil, or_false] at hg
    rcases hg with rfl | rfl <;> simp only [List.mem_cons, List.not_mem_nil, or_false] at hc <;>
      [rcases hc with rfl | rfl; subst hc] <;> simp [sample, sampleCase]
  · intro g hg c hc
    simp only [sample, List.mem_cons, List.not_mem_nil, or_false] at hg
    rcases hg with rfl | rfl <;> simp only [List.mem_cons, List.not_mem_nil, or_false] at hc <;>
      [rcases hc with rfl | rfl; subst hc] <;> simp [sampleCase]

-- PA with 75 points: the first group counts in full, the second not at all.
example : (grade sampleEnv sample).verdict = .PA ∧ (grade sampleEnv sample).score = 3/4 ∧
    (grade sampleEnv sample).contestScore = 75 ∧
    (grade sampleEnv sample).groups.map GroupResult.contestScore = [75, 0] ∧
    (grade sampleEnv sample).cases.map CaseResult.verdict = [.AC, .AC, .WA] := by
  decide +kernel

/-- One group: a correct case, and one whose output file cannot be opened. -/
def unopenable : Problem :=
  { sample with groups :=
      [{ name := "a", cases := [sampleCase "a.1" 1 .OK (some [0x31]), sampleCase "a.2" 3 .OK none] }] }

/-- C14 and C15 are false when an output file cannot be opened: the case scores zero with verdict OK,
its group still contributes, and the run is AC with full score. -/
theorem C15_unopenable_is_accepted :
    Compiles unopenable ∧
    (grade sampleEnv unopenable).verdict = .AC ∧ (grade sampleEnv unopenable).score = 1 ∧
    (grade sampleEnv unopenable).cases.map (fun c => (c.verdict, c.score)) = [(.AC, 1), (.OK, 0)] := by
  refine ⟨⟨rfl, ?_⟩, by decide +kernel⟩
  intro b hb
  simp only [unopenable, sample, List.mem_singleton] at hb
  subst hb; exact ⟨rfl, rfl⟩

theorem C14_unopenable_counts :
    ∃ g ∈ (grade sampleEnv unopenable).groups, (∃ c ∈ g.cases, c.score = 0) ∧ g.score = 1/4 := by
  decide +kernel

/-! ### C17 -/

/-- The contestant processes among the results. -/
def contestants (procs : List Proc) : List Proc := procs.filter fun r => r.kind = .contestant

/-- The parent (problem setter) processes among the results. -/
def parents (procs : List Proc) : List Proc := procs.filter fun r => r.kind = .problemsetter

theorem collect_fold (procs : List Proc) (s : Collect) :
    (procs.foldl collectStep s).verdict
      = ((contestants procs).map fun r => r.result.verdict).foldl worse s.verdict ∧
    (procs.foldl collectStep s).wallTime
      = ((contestants procs).map fun r => r.result.wallTime).foldl max s.wallTime ∧
    (procs.foldl collectStep s).time
      = ((contestants procs).map fun r => r.result.time).foldl fadd s.time ∧
    (procs.foldl collectStep s).parent
      = ((parents procs).getLast?.map fun r => r.result).or s.parent := by
  induction procs generalizing s with
  | nil => simp [contestants, parents]
  | cons r procs ih =>
    obtain ⟨h1, h2, h3, h4⟩ := ih (collectStep s r)
    simp only [List.foldl_cons]
    rw [h1, h2, h3, h4]
    unfold collectStep contestants parents
    cases hk : r.kind with
    | problemsetter =>
      simp only [List.filter_cons, hk, decide_true, if_true, List.getLast?_cons]
      refine ⟨rfl, rfl, rfl, ?_⟩
      generalize (procs.filter fun r => decide (r.kind = .problemsetter)).getLast? = o
      cases o <;> simp
    | contestant =>
      simp only [List.filter_cons, hk]
      simp
      split <;> simp

theorem collect_eq (procs : List Proc) :
    let cv := ((contestants procs).map fun r => r.result.verdict).foldl worse .OK
    (collect procs).verdict = (match (parents procs).getLast? with
      | some r => if r.result.verdict ≠ .OK ∧ cv = .OK then parentVerdict r.result else cv
      | none => cv) ∧
    (collect procs).wallTime = ((contestants procs).map fun r => r.result.wallTime).foldl max 0 ∧
    (collect procs).time = ((contestants procs).map fun r => r.result.time).foldl fadd 0 := by
  obtain ⟨h1, h2, h3, h4⟩ := collect_fold procs {}
  simp only at h1 h2 h3 h4
  simp only [collect, h4, h1, h2, h3]
  cases (parents procs).getLast? with
  | none => simp
  | some r => simp only [Option.map_some, Option.some_or]; split <;> simp

instance : RightCommutative worse := ⟨fun a b c => by
  apply rank_inj; simp only [worse_rank]; omega⟩

/-- **C17** The verdict of a case: if some contestant process failed, the worst verdict among them;
otherwise, if the parent process failed, OLE or TLE as the parent, RTE if the parent exited with one
of libinteractive's codes for a misbehaving child or died of a broken pipe, JE otherwise; otherwise
OK. -/
theorem C17_verdict_rule (procs : List Proc) :
    ((∃ r ∈ contestants procs, r.result.verdict ≠ .OK) →
      (∃ r ∈ contestants procs, r.result.verdict = (collect procs).verdict) ∧
      ∀ r ∈ contestants procs, (collect procs).verdict.rank ≤ r.result.verdict.rank) ∧
    ((∀ r ∈ contestants procs, r.result.verdict = .OK) →
      (∀ m, parents procs = [m] → m.result.verdict ≠ .OK →
        (collect procs).verdict =
          if m.result.verdict = .OLE ∨ m.result.verdict = .TLE then m.result.verdict
          else if m.result.exitStatus ∈ [239, 240, 241, 242] ∨ m.result.signal = some "SIGPIPE"
          then .RTE else .JE) ∧
      ((∀ m ∈ parents procs, m.result.verdict = .OK) → (collect procs).verdict = .OK)) := by
  obtain ⟨a, -⟩ := collect_eq procs
  obtain ⟨w1, w2, w3⟩ := foldl_worse ((contestants procs).map fun r => r.result.verdict) .OK
  generalize hV : ((contestants procs).map fun r => r.result.verdict).foldl worse .OK = V at *
  constructor
  · rintro ⟨r, hr, hne⟩
    have hVne : V ≠ .OK := by
      intro h
      have := w3 _ (List.mem_map.mpr ⟨r, hr, rfl⟩)
      rw [h] at this
      revert this hne
      cases r.result.verdict <;> decide
    have hc : (collect procs).verdict = V := by
      rw [a]
      split
      · rw [if_neg (fun h => hVne h.2)]
      · rfl
    rw [hc]
    constructor
    · rcases w1 with w1 | w1
      · obtain ⟨x, hx, he⟩ := List.mem_map.mp w1
        exact ⟨x, hx, he⟩
      · exact absurd w1 hVne
    · exact fun x hx => w3 _ (List.mem_map.mpr ⟨x, hx, rfl⟩)
  · intro hall
    have hVok : V = .OK := by
      rcases w1 with w1 | w1
      · obtain ⟨x, hx, he⟩ := List.mem_map.mp w1
        rw [← he, hall x hx]
      · exact w1
    constructor
    · intro m hm hne
      rw [a, hm]
      simp only [List.getLast?_singleton]
      rw [if_pos ⟨hne, hVok⟩]
      unfold parentVerdict
      simp only [List.mem_cons, List.not_mem_nil, or_false]
      split_ifs <;> simp_all
    · intro hp
      rw [a]
      cases hl : (parents procs).getLast? with
      | none => exact hVok
      | some m =>
        simp only
        rw [if_neg, hVok]
        exact fun h => h.1 (hp m (List.mem_of_getLast? hl))

theorem perm_short {α} {l l' : List α} (h : l.Perm l') (hl : l.length ≤ 1) : l = l' := by
  rcases l with _ | ⟨x, _ | ⟨y, l⟩⟩
  · exact (List.nil_perm.mp h).symm
  · exact List.singleton_perm.mp h
  · simp only [List.length_cons] at hl; omega

theorem perm_pair {α} {l l' : List α} (h : l.Perm l') (hl : l.length ≤ 2) :
    l = l' ∨ ∃ x y, l = [x, y] ∧ l' = [y, x] := by
  rcases l with _ | ⟨x, _ | ⟨y, _ | ⟨z, l⟩⟩⟩
  · exact .inl (List.nil_perm.mp h).symm
  · exact .inl (List.singleton_perm.mp h)
  · have hlen := h.length_eq
    rcases l' with _ | ⟨u, _ | ⟨v, _ | ⟨w, l'⟩⟩⟩
    · simp at hlen
    · simp at hlen
    · have hmem : u = x ∨ u = y := by
        have := h.symm.subset (show u ∈ [u, v] by simp)
        simpa using this
      rcases hmem with rfl | rfl
      · have := List.singleton_perm.mp ((List.perm_cons u).mp h)
        cases this; exact .inl rfl
      · have h1 : [u, x].Perm [u, v] := (List.Perm.swap x u []).trans h
        have := List.singleton_perm.mp ((List.perm_cons u).mp h1)
        cases this; exact .inr ⟨x, u, rfl, rfl⟩
    · simp at hlen
  · simp only [List.length_cons] at hl; omega

/-- **C17 (partial)** The verdict and the wall time of an interactive case do not depend on the
order in which the processes' results arrive. Missing: total time, which is a sum of rounded numbers
and does depend on the order with three or more contestant processes, and memory. -/
theorem C17_arrival_order_partial (procs procs' : List Proc) (h : procs.Perm procs')
    (hp : (parents procs).length ≤ 1) :
    (collect procs).verdict = (collect procs').verdict ∧
    (collect procs).wallTime = (collect procs').wallTime := by
  obtain ⟨a1, a2, -⟩ := collect_eq procs
  obtain ⟨b1, b2, -⟩ := collect_eq procs'
  have hc : (contestants procs).Perm (contestants procs') := h.filter _
  have hq : (parents procs).Perm (parents procs') := h.filter _
  have hpe : parents procs = parents procs' := perm_short hq hp
  rw [a1, a2, b1, b2, hpe]
  rw [(hc.map _).foldl_eq, (hc.map fun r => r.result.wallTime).foldl_eq]
  exact ⟨rfl, rfl⟩

/-- **C17** With at most two contestant processes the total time does not depend on the order. -/
theorem C17_time_two_processes (procs procs' : List Proc) (h : procs.Perm procs')
    (hc : (contestants procs).length ≤ 2)
    (hf : ∀ r ∈ procs, Float.roundQ r.result.time = r.result.time) :
    (collect procs).time = (collect procs').time := by
  obtain ⟨-, -, a⟩ := collect_eq procs
  obtain ⟨-, -, b⟩ := collect_eq procs'
  have hperm : (contestants procs).Perm (contestants procs') := h.filter _
  have hf' : ∀ r ∈ contestants procs, Float.roundQ r.result.time = r.result.time :=
    fun r hr => hf r (List.mem_filter.mp hr).1
  rw [a, b]
  rcases perm_pair hperm hc with e | ⟨x, y, ex, ey⟩
  · rw [e]
  · rw [ex] at hf'
    have hx := hf' x (by simp)
    have hy := hf' y (by simp)
    rw [ex, ey]
    simp only [List.map_cons, List.map_nil, List.foldl_cons, List.foldl_nil, fadd, zero_add, hx, hy]
    rw [add_comm]

/-- A child process with the given time and memory. -/
def child (name : String) (time : ℚ) (memory : Int) : Proc :=
  { name, kind := .contestant, result := { verdict := .OK, time := Float.roundQ time, memory } }

/-- C17 is false for time: three processes of 0.1, 0.2 and 0.3 seconds. -/
theorem C17_time_depends_on_order :
    (collect [child "a" (1/10) 0, child "b" (2/10) 0, child "c" (3/10) 0]).time ≠
    (collect [child "c" (3/10) 0, child "b" (2/10) 0, child "a" (1/10) 0]).time := by
  decide +kernel

/-- C17 is false for memory: 1 and 2 bytes give 3 or 4. -/
theorem C17_memory_depends_on_order :
    (collect [child "a" 0 1, child "b" 0 2]).memory = 3 ∧
    (collect [child "b" 0 2, child "a" 0 1]).memory = 4 := by
  decide +kernel

-- the parent was killed by SIGPIPE because a child exited early
example :
    let parent : Proc := { name := "Main", kind := .problemsetter,
                           result := { verdict := .RTE, signal := some "SIGPIPE" } }
    (parents [child "a" 1 0, parent, child "b" 2 0]).length ≤ 1 ∧
    (collect [child "a" 1 0, parent, child "b" 2 0]).verdict = .RTE ∧
    (collect [parent, child "a" 1 0, child "b" 2 0]).verdict = .RTE := by
  decide +kernel

/-! ### C18 -/

/-- Wall time accumulated by the cases before position `k` (binary64 additions). -/
def wallBefore (rs : List CaseResult) (k : Nat) : ℚ :=
  ((rs.take k).map CaseResult.wallTime).foldl fadd 0

/-- Is the action the execution of a process? -/
def Event.isExec : Event → Bool
  | .exec _ _ => true
  | _ => false

theorem runCases_append (p : Problem) (s : RunState) (as bs : List Case) :
    runCases p s (as ++ bs) = ((runCases p (runCases p s as).1 bs).1,
      (runCases p s as).2 ++ (runCases p (runCases p s as).1 bs).2) := by
  induction as generalizing s with
  | nil => rfl
  | cons a as ih => simp only [List.cons_append, runCases, ih]

theorem runGroups_flat (p : Problem) (s : RunState) (gs : List Group) :
    (runGroups p s gs).1 = (runCases p s (gs.flatMap Group.cases)).1 ∧
    (runGroups p s gs).2.flatMap Prod.snd = (runCases p s (gs.flatMap Group.cases)).2 := by
  induction gs generalizing s with
  | nil => exact ⟨rfl, rfl⟩
  | cons g gs ih =>
    obtain ⟨h1, h2⟩ := ih (runCases p s g.cases).1
    simp only [runGroups, List.flatMap_cons, runCases_append]
    exact ⟨h1, by rw [h2]⟩

/-- The run loop, by position. -/
theorem runCases_index (p : Problem) (s : RunState) (cs : List Case) :
    let rs := (runCases p s cs).2.map Prod.snd
    let W := fun k => ((rs.take k).map CaseResult.wallTime).foldl fadd s.wallTime
    rs.length = cs.length ∧
    (runCases p s cs).1.events = s.events ++
      (List.range cs.length).flatMap (fun k => ((cs[k]?).map fun c => (execCase p (W k) c).2).getD []) ∧
    ∀ (k : Nat) (c : Case) (r : CaseResult), cs[k]? = some c → rs[k]? = some r →
      r.verdict = (execCase p (W k) c).1.verdict ∧ r.wallTime = (execCase p (W k) c).1.wallTime := by
  induction cs generalizing s with
  | nil => simp [runCases]
  | cons c cs ih =>
    obtain ⟨h1, h2, h3⟩ := ih (runCase p s c).1
    simp only at h1 h2 h3 ⊢
    simp only [runCases, List.map_cons]
    refine ⟨by simp [h1], ?_, ?_⟩
    · rw [h2, List.length_cons, List.range_succ_eq_map, List.flatMap_cons, List.flatMap_map]
      have he : (runCase p s c).1.events = s.events ++ (execCase p s.wallTime c).2 := rfl
      rw [he, List.append_assoc]
      simp only [List.getElem?_cons_zero, Option.map_some, Option.getD_some, List.take_zero,
        List.map_nil, List.foldl_nil, List.getElem?_cons_succ, List.take_succ_cons, List.map_cons,
        List.foldl_cons]
      rfl
    · intro k c' r hc hr
      match k with
      | 0 =>
        simp only [List.getElem?_cons_zero, Option.some.injEq] at hc hr
        subst hc hr
        exact ⟨rfl, rfl⟩
      | k + 1 =>
        simp only [List.getElem?_cons_succ] at hc hr
        exact h3 k c' r hc hr

theorem validateCase_events (env : Env) (p : Problem) (s : ValState) (c : Case) (r : CaseResult) :
    (validateCase env p s c r).1.events.filter Event.isExec = s.events.filter Event.isExec := by
  unfold validateCase
  split
  · split
    · simp only
      split
      · simp [Event.isExec]
      · split <;> simp [Event.isExec]
    · rfl
  · rfl

theorem validateCases_events (env : Env) (p : Problem) (s : ValState) (xs : List (Case × CaseResult)) :
    (validateCases env p s xs).1.events.filter Event.isExec = s.events.filter Event.isExec := by
  induction xs generalizing s with
  | nil => rfl
  | cons x xs ih =>
    obtain ⟨c, r⟩ := x
    simp only [validateCases]
    rw [ih, validateCase_events]

theorem validateGroups_events (env : Env) (p : Problem) (v : Verdict) (sc : ℚ) (ev : List Event)
    (ys : List (Group × List (Case × CaseResult))) :
    (validateGroups env p v sc ev ys).2.2.1.filter Event.isExec = ev.filter Event.isExec := by
  induction ys generalizing v sc ev with
  | nil => rfl
  | cons y ys ih =>
    obtain ⟨g, cs⟩ := y
    simp only [validateGroups]
    rw [ih, validateCases_events]

theorem compileAll_events (bs : List Compile) : (compileAll bs).1.filter Event.isExec = [] := by
  induction bs with
  | nil => rfl
  | cons b bs ih =>
    rw [compileAll]
    split
    · rfl
    · simp only [List.filter_cons, Event.isExec]
      simpa using ih

theorem wall_fixed (l : List ℚ) (h : ∀ x ∈ l, x = 0) (w : ℚ) (hw : Float.roundQ w = w) :
    l.foldl fadd w = w := by
  induction l generalizing w with
  | nil => rfl
  | cons x l ih =>
    have : fadd w x = w := by rw [h x (by simp), fadd, add_zero, hw]
    rw [List.foldl_cons, this]
    exact ih (fun y hy => h y (by simp [hy])) w hw

theorem foldl_fadd_round (l : List ℚ) (w : ℚ) (hw : Float.roundQ w = w) :
    Float.roundQ (l.foldl fadd w) = l.foldl fadd w := by
  induction l generalizing w with
  | nil => exact hw
  | cons x l ih => exact ih _ (roundQ_idem _)

/-- **C18** Let W(k) be the wall time accumulated before case k. The processes executed are exactly
those of the cases with W(k) within the limit; a case with W(k) above the limit has verdict TLE and
adds no time; once above the limit, W stays above it, so no later case is executed. -/
theorem C18_wall_time_cut (env : Env) (p : Problem) (hc : Compiles p) (hcat : p.cat = false) :
    let cs := p.groups.flatMap Group.cases
    let rs := (grade env p).cases
    rs.length = cs.length ∧
    (grade env p).events.filter Event.isExec = (List.range cs.length).flatMap (fun k =>
      if p.wallLimit < wallBefore rs k then []
      else ((cs[k]?).map fun c => c.procs.map fun r => Event.exec c.name r.name).getD []) ∧
    (∀ k r, rs[k]? = some r → p.wallLimit < wallBefore rs k → r.verdict = .TLE ∧ r.wallTime = 0) ∧
    (∀ j k, j ≤ k → p.wallLimit < wallBefore rs j → p.wallLimit < wallBefore rs k) ∧
    (∀ (k : Nat) c r, cs[k]? = some c → rs[k]? = some r → wallBefore rs k ≤ p.wallLimit →
      r.wallTime = (collect c.procs).wallTime ∧
      ((collect c.procs).verdict ≠ .OK → r.verdict = (collect c.procs).verdict)) := by
  have hcc := compileAll_ok _ hc.2
  obtain ⟨ys, hys, hf, hm, hg, -⟩ := grade_ok env p hc.1 hcc
  obtain ⟨f1, f2⟩ := runGroups_flat p { events := (compileAll p.compiles).1 } p.groups
  obtain ⟨i1, i2, i3⟩ := runCases_index p { events := (compileAll p.compiles).1 }
    (p.groups.flatMap Group.cases)
  set xs := (runCases p { events := (compileAll p.compiles).1 } (p.groups.flatMap Group.cases)).2
    with hxs
  have hfx : ∀ x ∈ xs, Fresh p x := runCases_fresh p _ _
  have hrs : (grade env p).cases = xs.map (fin env p) := by
    unfold RunResult.cases
    rw [hg, ← f2, ← hys, List.flatMap_map, List.map_flatMap]
    rfl
  have hwall : (xs.map (fin env p)).map CaseResult.wallTime
      = (xs.map Prod.snd).map CaseResult.wallTime := by
    rw [List.map_map, List.map_map]
    apply List.map_congr_left
    intro x hx
    exact (fin_spec env p x (hfx x hx)).2.2.1
  have hW : ∀ k, wallBefore (grade env p).cases k
      = (((xs.map Prod.snd).take k).map CaseResult.wallTime).foldl fadd 0 := by
    intro k
    unfold wallBefore
    rw [hrs, List.map_take, hwall, ← List.map_take]
  simp only at i1 i2 i3
  simp only
  have hidx : ∀ (k : Nat) (r : CaseResult), (grade env p).cases[k]? = some r →
      ∃ c r₀, (p.groups.flatMap Group.cases)[k]? = some c ∧ (xs.map Prod.snd)[k]? = some r₀ ∧
        r = fin env p (c, r₀) ∧ (c, r₀) ∈ xs := by
    intro k r hr
    rw [hrs, List.getElem?_map, Option.map_eq_some_iff] at hr
    obtain ⟨x, hx, rfl⟩ := hr
    refine ⟨x.1, x.2, ?_, ?_, rfl, List.mem_of_getElem? hx⟩
    · have := runCases_fst p { events := (compileAll p.compiles).1 } (p.groups.flatMap Group.cases)
      rw [← this, List.getElem?_map, ← hxs, hx]; rfl
    · rw [List.getElem?_map, hx]; rfl
  have htle : ∀ k r, (grade env p).cases[k]? = some r →
      p.wallLimit < wallBefore (grade env p).cases k → r.verdict = .TLE ∧ r.wallTime = 0 := by
    intro k r hr hlt
    obtain ⟨c, r₀, h1, h2, rfl, h4⟩ := hidx k r hr
    obtain ⟨e1, e2⟩ := i3 k c r₀ h1 h2
    rw [← hW] at e1 e2
    unfold execCase at e1 e2
    rw [if_pos hlt] at e1 e2
    obtain ⟨-, -, g3, -, -, -, g7, -⟩ := fin_spec env p (c, r₀) (hfx _ h4)
    simp only at g3 g7 e1 e2
    refine ⟨?_, by rw [g3, e2]⟩
    rw [(g7 (by rw [e1]; decide)).1, e1]
  refine ⟨by rw [hrs, ← i1]; simp, ?_, htle, ?_, ?_⟩
  · have hev : (grade env p).events.filter Event.isExec
        = (runCases p { events := (compileAll p.compiles).1 }
            (p.groups.flatMap Group.cases)).1.events.filter Event.isExec := by
      rw [← f1]
      conv_lhs => unfold grade
      rw [hc.1]
      simp only [hcc, Bool.not_true, Bool.false_eq_true, if_false]
      exact validateGroups_events env p _ _ _ _
    rw [hev, i2, List.filter_append, compileAll_events, List.nil_append, List.filter_flatMap]
    apply List.flatMap_congr
    intro k hk
    rw [hW]
    cases hcs : (p.groups.flatMap Group.cases)[k]? with
    | none => simp
    | some c =>
      simp only [Option.map_some, Option.getD_some, execCase, hcat, Bool.false_eq_true, if_false]
      split
      · rfl
      · rw [List.filter_eq_self]
        intro e he
        obtain ⟨r, -, rfl⟩ := List.mem_map.mp he
        rfl
  · intro j k hjk hj
    obtain ⟨d, rfl⟩ := Nat.exists_eq_add_of_le hjk
    induction d with
    | zero => exact hj
    | succ d ih =>
      have ih := ih (by omega)
      cases hr : (grade env p).cases[j + d]? with
      | none =>
        have hlen : (grade env p).cases.length ≤ j + d := List.getElem?_eq_none_iff.mp hr
        unfold wallBefore at ih ⊢
        rwa [List.take_of_length_le (by omega)] at ih ⊢
      | some r =>
        have hz := (htle _ r hr ih).2
        have hstep : wallBefore (grade env p).cases (j + (d + 1))
            = fadd (wallBefore (grade env p).cases (j + d)) r.wallTime := by
          unfold wallBefore
          rw [← Nat.add_assoc, List.take_add_one, hr]
          simp
        have hround : Float.roundQ (wallBefore (grade env p).cases (j + d))
            = wallBefore (grade env p).cases (j + d) :=
          foldl_fadd_round _ 0 Float.roundQ_zero
        rw [hstep, hz, fadd, add_zero, hround]
        exact ih
  · intro k c r hck hrk hle
    obtain ⟨c', r₀, h1, h2, rfl, h4⟩ := hidx k r hrk
    rw [hck] at h1
    cases h1
    obtain ⟨e1, e2⟩ := i3 k c r₀ hck h2
    rw [← hW] at e1 e2
    unfold execCase at e1 e2
    rw [if_neg (by linarith), hcat] at e1 e2
    simp only [Bool.false_eq_true, if_false] at e1 e2
    obtain ⟨-, -, g3, -, -, -, g7, -⟩ := fin_spec env p (c, r₀) (hfx _ h4)
    simp only at g3 g7
    refine ⟨by rw [g3, e2], fun hne => ?_⟩
    rw [(g7 (by rw [e1]; exact hne)).1, e1]

-- with a limit of 3/2 s and 1 s per case, the third case is cut
example :
    (grade sampleEnv { sample with wallLimit := 3/2 }).cases.map CaseResult.verdict
      = [.AC, .AC, .TLE] ∧
    (grade sampleEnv { sample with wallLimit := 3/2 }).events.filter Event.isExec
      = [.exec "a.1" "Main", .exec "a.2" "Main"] := by
  decide +kernel

/-! ### C19 -/

/-- **C19** If a binary fails to compile (an error, or a verdict other than OK), all binaries before
it having compiled, the result is CE with score zero and no group results, and nothing but the
compilations up to that binary happened. -/
theorem C19_compile_failure (env : Env) (p : Problem) (hs : p.setup = .ok)
    (pre post : List Compile) (b : Compile) (hb : p.compiles = pre ++ b :: post)
    (hpre : ∀ x ∈ pre, x.err = false ∧ x.verdict = .OK) (hfail : b.err = true ∨ b.verdict ≠ .OK) :
    (grade env p).verdict = .CE ∧ (grade env p).score = 0 ∧ (grade env p).contestScore = 0 ∧
    (grade env p).groups = [] ∧
    (grade env p).events = (pre ++ [b]).map fun x => Event.compile x.name := by
  have : compileAll p.compiles = ((pre ++ [b]).map fun x => Event.compile x.name, false) := by
    rw [hb]
    clear hb
    induction pre with
    | nil => simp [compileAll, hfail]
    | cons x pre ih =>
      obtain ⟨h1, h2⟩ := hpre x (by simp)
      simp only [List.cons_append, compileAll]
      rw [if_neg (by simp [h1, h2]), ih (fun y hy => hpre y (by simp [hy]))]
      simp
  unfold grade
  rw [hs, this]
  simp

/-- **C19** Conversely, when everything compiles, executing cases never yields CE. -/
theorem C19_no_ce_otherwise (env : Env) (p : Problem) (hc : Compiles p) (hfs : FromSandbox p) :
    (grade env p).verdict ≠ .CE := by
  obtain ⟨ys, -, hf, hm, hg, -, -, v, hv, sc, -, hvs⟩ := grade_ok env p hc.1 (compileAll_ok _ hc.2)
  have hsv := fresh_sandbox hfs hm hf
  have hV : ((ys.flatMap Prod.snd).map (fun x => x.2.verdict)).foldl worse .OK ≠ .CE := by
    rcases (foldl_worse ((ys.flatMap Prod.snd).map (fun x => x.2.verdict)) .OK).1 with h | h
    · obtain ⟨x, hx, he⟩ := List.mem_map.mp h
      obtain ⟨y, hy, hxy⟩ := List.mem_flatMap.mp hx
      have := hsv y hy x hxy
      rw [← he]
      intro hce
      rw [hce] at this
      exact absurd this (by unfold SandboxVerdict; decide)
    · rw [h]; decide
  have hvce : v ≠ .CE := by
    rw [hv]
    split
    · generalize ((ys.flatMap Prod.snd).map (fun x => x.2.verdict)).foldl worse .OK = w at *
      revert hV
      cases w <;> decide
    · exact hV
  have h1 : (grade env p).verdict = _ := congrArg Prod.fst hvs
  rw [h1]
  split
  · simp
  · split
    · simp
    · exact hvce

-- a validator that does not compile
example :
    let p := { sample with compiles := sample.compiles ++ [{ name := "validator", err := false, verdict := .RTE }] }
    (grade sampleEnv p).verdict = .CE ∧
    (grade sampleEnv p).events = [.compile "Main", .compile "validator"] := by
  decide +kernel

end Quark.Grade
