import Verif.IoLock.Model

/-!
# The work of a runner is serial (C142)

The specification: for each goroutine, the list of its jobs, a job being a list of pieces of work; an execution is
serial if it does whole jobs, one after another.
-/

namespace Quark.IoLock

/-! ## Specification -/

/-- The work of one piece, begun and ended with nothing in between. -/
def whole (t : Nat) (w : Work) : List Event := [⟨t, true, w⟩, ⟨t, false, w⟩]

/-- Whole jobs, one after another. -/
def serial (order : List (Nat × List Work)) : List Event := order.flatMap fun j => j.2.flatMap (whole j.1)

/-- The jobs of goroutine `t` in `order`. -/
def jobsOf (t : Nat) (order : List (Nat × List Work)) : List (List Work) :=
  (order.filter fun j => j.1 = t).map fun j => j.2

/-- Grading a run: its input is fetched, it is graded, the input is released. -/
def gradeJob : Nat × Outcome → List Work
  | (h, .noInput) => [.fetch h]
  | (h, .graded) => [.fetch h, .grade h, .release h]

/-- Preloading an input: it is fetched, and then released or, if that failed, discarded. -/
def preloadJob : Nat × Bool → List Work
  | (h, true) => [.fetch h, .release h]
  | (h, false) => [.fetch h, .discard h]

/-- A benchmark: cases are fetched and graded up to the first that fails; then every input that was had is released,
the last first. -/
def benchJob (cases : List (Nat × BenchOutcome)) : List Work :=
  let good := cases.takeWhile fun c => c.2 = .ok
  let hashes := good.map fun c => c.1
  (hashes.flatMap fun h => [.fetch h, .grade h]) ++
    match (cases.dropWhile fun c => c.2 = .ok).head? with
    | some (h, .noInput) => .fetch h :: hashes.reverse.map .release
    | some (h, _) => .fetch h :: .grade h :: .release h :: hashes.reverse.map .release
    | none => hashes.reverse.map .release

/-- The jobs of the three goroutines of a runner. -/
def runnerJobs (inputs : List (Nat × Bool)) (rounds : List (List (Nat × BenchOutcome))) (runs : List (Nat × Outcome)) :
    List (List (List Work)) :=
  [inputs.map preloadJob, rounds.map benchJob, runs.map gradeJob]

/-! ## Scripts -/

/-- A script that does its jobs under the lock. -/
inductive Shaped : List Instr → List (List Work) → Prop
  | nil : Shaped [] []
  | pause {i js} : Shaped i js → Shaped (.pause :: i) js
  | job {ws i js} : Shaped i js → Shaped (.lock :: (ws.map .work ++ .unlock :: i)) (ws :: js)

theorem Shaped.append {i js i' js'} (h : Shaped i js) (h' : Shaped i' js') : Shaped (i ++ i') (js ++ js') := by
  induction h with
  | nil => exact h'
  | pause _ ih => exact .pause ih
  | @job ws i js _ ih =>
    have := Shaped.job (ws := ws) ih
    simpa using this

theorem Shaped.flatMap {α} (f : α → List Instr) (g : α → List Work) (h : ∀ a, Shaped (f a) [g a]) (l : List α) :
    Shaped (l.flatMap f) (l.map g) := by
  induction l with
  | nil => exact .nil
  | cons a l ih => exact (h a).append ih

theorem shaped_gradeRun (r : Nat × Outcome) : Shaped (gradeRun r.1 r.2) [gradeJob r] := by
  obtain ⟨h, o⟩ := r
  cases o
  · exact Shaped.job (ws := [.fetch h]) .nil
  · exact Shaped.job (ws := [.fetch h, .grade h, .release h]) .nil

theorem shaped_mainLoop (runs : List (Nat × Outcome)) : Shaped (mainLoop runs) (runs.map gradeJob) := by
  refine Shaped.flatMap _ _ (fun r => ?_) runs
  have := (Shaped.pause (shaped_gradeRun r)).append (Shaped.pause .nil)
  simpa using this

theorem shaped_preload (inputs : List (Nat × Bool)) : Shaped (preloadInputs inputs) (inputs.map preloadJob) := by
  refine Shaped.flatMap _ _ (fun r => ?_) inputs
  obtain ⟨h, ok⟩ := r
  cases ok
  · exact Shaped.job (ws := [.fetch h, .discard h]) .nil
  · exact Shaped.job (ws := [.fetch h, .release h]) .nil

theorem benchCases_eq (cases : List (Nat × BenchOutcome)) (held : List Nat) :
    benchCases cases held = (benchJob cases ++ held.map Work.release).map .work := by
  induction cases generalizing held with
  | nil => simp [benchCases, benchJob]
  | cons c cases ih =>
    obtain ⟨h, o⟩ := c
    cases o with
    | noInput => simp [benchCases, benchJob]
    | failed => simp [benchCases, benchJob]
    | ok =>
      simp only [benchCases, ih, benchJob]
      simp only [List.takeWhile_cons, List.dropWhile_cons, decide_true, if_true, List.map_cons, List.flatMap_cons,
        List.reverse_cons, List.map_append, List.cons_append, List.nil_append, List.append_assoc]
      rcases hd : (cases.dropWhile fun c => decide (c.2 = .ok)).head? with _ | ⟨h', _ | _ | _⟩ <;> simp [hd]

theorem shaped_benchLoop (rounds : List (List (Nat × BenchOutcome))) :
    Shaped (benchLoop rounds) (rounds.map benchJob) := by
  refine Shaped.flatMap _ _ (fun cases => ?_) rounds
  have := Shaped.job (ws := benchJob cases) (Shaped.pause .nil)
  simpa [runHostBenchmark, benchCases_eq] using this

/-! ## The invariant -/

/-- What has happened in the job of the goroutine that has the lock: `did` is done, `busy` under way. -/
def current (t : Nat) (did : List Work) (busy : Option Work) : List Event :=
  did.flatMap (whole t) ++ match busy with
    | none => []
    | some w => [⟨t, true, w⟩]

/-- A goroutine outside the lock. -/
def Outside (jobs : List (List Work)) (x : Thread) (past : List (List Work)) : Prop :=
  x.busy = none ∧ ∃ js, Shaped x.todo js ∧ jobs = past ++ js

/-- A goroutine in its job. -/
def Inside (jobs : List (List Work)) (x : Thread) (past : List (List Work)) (did : List Work) : Prop :=
  ∃ ws i js, x.todo = ws.map .work ++ .unlock :: i ∧ Shaped i js ∧
    jobs = past ++ (did ++ x.busy.toList ++ ws) :: js

structure Inv (jobs : Nat → List (List Work)) (s : State) (order : List (Nat × List Work)) (did : List Work) : Prop where
  outside : ∀ t x, s.threads[t]? = some x → s.holder ≠ some t → Outside (jobs t) x (jobsOf t order)
  inside : ∀ t, s.holder = some t → ∃ x, s.threads[t]? = some x ∧ Inside (jobs t) x (jobsOf t order) did ∧
    s.events = serial order ++ current t did x.busy
  free : s.holder = none → s.events = serial order

theorem jobsOf_append (t : Nat) (o : List (Nat × List Work)) (u : Nat) (ws : List Work) :
    jobsOf t (o ++ [(u, ws)]) = jobsOf t o ++ if u = t then [ws] else [] := by
  by_cases h : u = t <;> simp [jobsOf, h]

theorem serial_append (o : List (Nat × List Work)) (u : Nat) (ws : List Work) :
    serial (o ++ [(u, ws)]) = serial o ++ ws.flatMap (whole u) := by
  simp [serial]

theorem Inv.next {jobs s order did t s'} (hi : Inv jobs s order did) (hs : step s t = some s') :
    ∃ order' did', Inv jobs s' order' did' := by
  simp only [step] at hs
  split at hs
  · cases hs
  rename_i x hx
  have hlt : t < s.threads.length := (List.getElem?_eq_some_iff.mp hx).1
  -- who works has the lock
  have hin : x.busy ≠ none ∨ (∃ w r, x.todo = .work w :: r) ∨ (∃ r, x.todo = .unlock :: r) → s.holder = some t := by
    intro h
    by_contra hn
    obtain ⟨hb, js, hsh, -⟩ := hi.outside t x hx hn
    rcases h with h | ⟨w, r, h⟩ | ⟨r, h⟩
    · exact h hb
    · rw [h] at hsh; cases hsh
    · rw [h] at hsh; cases hsh
  split at hs
  · -- a piece of work ends
    rename_i w hb
    cases hs
    have hh := hin (.inl (by simp [hb]))
    obtain ⟨x', hx', ⟨ws, i, js, h1, h2, h3⟩, h4⟩ := hi.inside t hh
    rw [hx] at hx'; cases hx'
    refine ⟨order, did ++ [w], ⟨?_, ?_, ?_⟩⟩
    · intro u y hy hu
      have hne : t ≠ u := by rintro rfl; exact hu hh
      simp only [List.getElem?_set_ne hne] at hy
      exact hi.outside u y hy hu
    · intro u hu
      have : u = t := by simpa [hh] using hu.symm
      subst this
      refine ⟨_, List.getElem?_set_self hlt, ⟨ws, i, js, h1, h2, ?_⟩, ?_⟩
      · simpa [hb] using h3
      · rw [h4]; simp [current, hb, whole]
    · intro hn; simp only [hh] at hn; cases hn
  · cases hs
  · -- pause
    rename_i rest hb ht
    cases hs
    by_cases hh : s.holder = some t
    · obtain ⟨x', hx', ⟨ws, i, js, h1, -, -⟩, -⟩ := hi.inside t hh
      rw [hx] at hx'; cases hx'
      rw [ht] at h1
      cases ws <;> simp at h1
    · refine ⟨order, did, ⟨?_, ?_, hi.free⟩⟩
      · intro u y hy hu
        by_cases hne : t = u
        · subst hne
          simp only [List.getElem?_set_self hlt] at hy
          cases hy
          obtain ⟨hb, js, hsh, hj⟩ := hi.outside t x hx hh
          rw [ht] at hsh
          cases hsh with
          | pause h => exact ⟨hb, js, h, hj⟩
        · simp only [List.getElem?_set_ne hne] at hy
          exact hi.outside u y hy hu
      · intro u hu
        have hne : t ≠ u := by rintro rfl; exact hh hu
        obtain ⟨y, hy, h⟩ := hi.inside u hu
        exact ⟨y, by simpa only [List.getElem?_set_ne hne] using hy, h⟩
  · -- a piece of work begins
    rename_i w rest hb ht
    cases hs
    have hh := hin (.inr (.inl ⟨_, _, ht⟩))
    obtain ⟨x', hx', ⟨ws, i, js, h1, h2, h3⟩, h4⟩ := hi.inside t hh
    rw [hx] at hx'; cases hx'
    rw [ht] at h1
    cases ws with
    | nil => simp at h1
    | cons w' ws =>
      simp only [List.map_cons, List.cons_append, List.cons.injEq, Instr.work.injEq] at h1
      obtain ⟨rfl, rfl⟩ := h1
      refine ⟨order, did, ⟨?_, ?_, ?_⟩⟩
      · intro u y hy hu
        have hne : t ≠ u := by rintro rfl; exact hu hh
        simp only [List.getElem?_set_ne hne] at hy
        exact hi.outside u y hy hu
      · intro u hu
        have : u = t := by simpa [hh] using hu.symm
        subst this
        refine ⟨_, List.getElem?_set_self hlt, ⟨ws, i, js, rfl, h2, ?_⟩, ?_⟩
        · simpa [hb] using h3
        · rw [h4]; simp [current, hb]
      · intro hn; simp only [hh] at hn; cases hn
  · -- lock
    rename_i rest hb ht
    split at hs
    · rename_i hn
      cases hs
      obtain ⟨-, js, hsh, hj⟩ := hi.outside t x hx (by simp [hn])
      rw [ht] at hsh
      generalize hl : Instr.lock :: rest = l at hsh
      cases hsh with
      | nil => cases hl
      | pause => cases hl
      | @job ws i js hsh =>
        cases hl
        refine ⟨order, [], ⟨?_, ?_, ?_⟩⟩
        · intro u y hy hu
          have hne : t ≠ u := by rintro rfl; exact hu rfl
          simp only [List.getElem?_set_ne hne] at hy
          exact hi.outside u y hy (by simp [hn])
        · intro u hu
          have : t = u := by simpa using hu
          subst this
          refine ⟨_, List.getElem?_set_self hlt, ⟨ws, i, js, rfl, hsh, ?_⟩, ?_⟩
          · simpa [hb] using hj
          · simp [current, hb, hi.free hn]
        · intro h; cases h
    · cases hs
  · -- unlock
    rename_i rest hb ht
    split at hs
    · cases hs
    · cases hs
      have hh := hin (.inr (.inr ⟨_, ht⟩))
      obtain ⟨x', hx', ⟨ws, i, js, h1, h2, h3⟩, h4⟩ := hi.inside t hh
      rw [hx] at hx'; cases hx'
      rw [ht] at h1
      cases ws with
      | cons w' ws => simp at h1
      | nil =>
        simp only [List.map_nil, List.nil_append, List.cons.injEq, true_and] at h1
        subst h1
        refine ⟨order ++ [(t, did)], [], ⟨?_, ?_, ?_⟩⟩
        · intro u y hy _
          rw [jobsOf_append]
          by_cases hne : t = u
          · subst hne
            simp only [List.getElem?_set_self hlt] at hy
            cases hy
            exact ⟨hb, js, h2, by simpa [hb] using h3⟩
          · simp only [List.getElem?_set_ne hne] at hy
            rw [if_neg hne, List.append_nil]
            exact hi.outside u y hy (by rw [hh]; simpa using hne)
        · intro u hu; cases hu
        · intro _
          rw [h4, serial_append]; simp [current, hb]

theorem inv_of_reach {scripts : List (List Instr)} {jobs : List (List (List Work))}
    (hlen : scripts.length = jobs.length)
    (hsh : ∀ (t : Nat) i js, scripts[t]? = some i → jobs[t]? = some js → Shaped i js) {s} (h : Reach scripts s) :
    ∃ order did, Inv (fun t => jobs[t]?.getD []) s order did := by
  induction h with
  | start =>
    refine ⟨[], [], ⟨?_, ?_, ?_⟩⟩
    · intro t x hx _
      simp only [start, List.getElem?_map, Option.map_eq_some_iff] at hx
      obtain ⟨i, hi, rfl⟩ := hx
      have hlt := (List.getElem?_eq_some_iff.mp hi).1
      have hj : jobs[t]? = some (jobs[t]'(hlen ▸ hlt)) := List.getElem?_eq_getElem _
      exact ⟨rfl, _, hsh t i _ hi hj, by simp [hj, jobsOf]⟩
    · intro t ht; cases ht
    · intro _; rfl
  | step _ hs ih =>
    obtain ⟨o, d, hi⟩ := ih
    exact hi.next hs

theorem runner_shaped (inputs : List (Nat × Bool)) (rounds : List (List (Nat × BenchOutcome)))
    (runs : List (Nat × Outcome)) (t : Nat) (i : List Instr) (js : List (List Work))
    (hi : (runner inputs rounds runs)[t]? = some i) (hj : (runnerJobs inputs rounds runs)[t]? = some js) :
    Shaped i js := by
  match t with
  | 0 => cases hi; cases hj; exact shaped_preload inputs
  | 1 => cases hi; cases hj; exact shaped_benchLoop rounds
  | 2 => cases hi; cases hj; exact shaped_mainLoop runs
  | n + 3 => simp [runner] at hi

/-! ## C142 -/

theorem jobsOf_cons (t : Nat) (j : Nat × List Work) (o : List (Nat × List Work)) :
    jobsOf t (j :: o) = (if j.1 = t then [j.2] else []) ++ jobsOf t o := by
  by_cases h : j.1 = t <;> simp [jobsOf, h]

/-- C142: whatever the goroutines of a runner have done so far, it is the beginning of an execution that does whole
jobs, one after another, each goroutine its own jobs in its own order. -/
theorem C142_serial (inputs : List (Nat × Bool)) (rounds : List (List (Nat × BenchOutcome)))
    (runs : List (Nat × Outcome)) {s} (h : Reach (runner inputs rounds runs) s) :
    ∃ order : List (Nat × List Work), s.events <+: serial order ∧
      jobsOf 0 order <+: inputs.map preloadJob ∧ jobsOf 1 order <+: rounds.map benchJob ∧
      jobsOf 2 order <+: runs.map gradeJob := by
  obtain ⟨o, d, hi⟩ := inv_of_reach (jobs := runnerJobs inputs rounds runs) rfl (runner_shaped inputs rounds runs) h
  have hlen : s.threads.length = 3 := by
    clear hi
    induction h with
    | start => rfl
    | step _ hs ih =>
      simp only [step] at hs
      repeat' split at hs
      all_goals first | (cases hs; done) | (cases hs; simpa using ih)
  have hpre : ∀ t, t < 3 → ∃ r, ((runnerJobs inputs rounds runs)[t]?.getD []) = jobsOf t o ++ r ∧
      (∀ x, s.threads[t]? = some x → s.holder = some t → ∃ ws js, r = (d ++ x.busy.toList ++ ws) :: js) := by
    intro t ht
    have hx : s.threads[t]? = some (s.threads[t]'(by omega)) := List.getElem?_eq_getElem _
    by_cases hh : s.holder = some t
    · obtain ⟨x, hx, ⟨ws, i, js, -, -, h3⟩, -⟩ := hi.inside t hh
      refine ⟨_, h3, fun y hy _ => ?_⟩
      rw [hx] at hy; cases hy
      exact ⟨ws, js, rfl⟩
    · obtain ⟨-, js, -, h3⟩ := hi.outside t _ hx hh
      exact ⟨js, h3, fun _ _ hn => absurd hn hh⟩
  rcases hh : s.holder with _ | t
  · refine ⟨o, by rw [hi.free hh]; exact List.prefix_refl _, ?_, ?_, ?_⟩
    · obtain ⟨r, hr, -⟩ := hpre 0 (by omega); exact ⟨r, hr.symm⟩
    · obtain ⟨r, hr, -⟩ := hpre 1 (by omega); exact ⟨r, hr.symm⟩
    · obtain ⟨r, hr, -⟩ := hpre 2 (by omega); exact ⟨r, hr.symm⟩
  · obtain ⟨x, hx, -, hev⟩ := hi.inside t hh
    have htl : t < 3 := by have := (List.getElem?_eq_some_iff.mp hx).1; omega
    obtain ⟨r, hr, hr'⟩ := hpre t htl
    obtain ⟨ws, js, rfl⟩ := hr' x hx hh
    have key : ∀ u, u < 3 → jobsOf u (o ++ [(t, d ++ x.busy.toList ++ ws)]) <+:
        (runnerJobs inputs rounds runs)[u]?.getD [] := by
      intro u hu
      rw [jobsOf_append]
      by_cases htu : t = u
      · subst htu; rw [if_pos rfl, hr]; exact ⟨js, by simp⟩
      · rw [if_neg htu, List.append_nil]
        obtain ⟨r, hr, -⟩ := hpre u hu; exact ⟨r, hr.symm⟩
    refine ⟨o ++ [(t, d ++ x.busy.toList ++ ws)], ?_, key 0 (by omega), key 1 (by omega), key 2 (by omega)⟩
    rw [hev, serial_append]
    rcases hb : x.busy with _ | w
    · exact ⟨ws.flatMap (whole t), by simp [current]⟩
    · exact ⟨⟨t, false, w⟩ :: ws.flatMap (whole t), by simp [current, whole]⟩

/-- C142: the goroutines never block each other for good: if none can move, all work is done, in some serial order of
all the jobs. -/
theorem C142_no_deadlock (inputs : List (Nat × Bool)) (rounds : List (List (Nat × BenchOutcome)))
    (runs : List (Nat × Outcome)) {s} (h : Reach (runner inputs rounds runs) s) (hstuck : ∀ t, step s t = none) :
    ∃ order : List (Nat × List Work), s.events = serial order ∧
      jobsOf 0 order = inputs.map preloadJob ∧ jobsOf 1 order = rounds.map benchJob ∧
      jobsOf 2 order = runs.map gradeJob := by
  obtain ⟨o, d, hi⟩ := inv_of_reach (jobs := runnerJobs inputs rounds runs) rfl (runner_shaped inputs rounds runs) h
  have hlen : s.threads.length = 3 := by
    clear hi hstuck
    induction h with
    | start => rfl
    | step _ hs ih =>
      simp only [step] at hs
      repeat' split at hs
      all_goals first | (cases hs; done) | (cases hs; simpa using ih)
  have hfree : s.holder = none := by
    rcases hh : s.holder with _ | t
    · rfl
    · exfalso
      obtain ⟨x, hx, ⟨ws, i, js, h1, -, -⟩, -⟩ := hi.inside t hh
      have := hstuck t
      simp only [step, hx] at this
      rcases hb : x.busy with _ | w
      · cases ws with
        | nil => simp [hb, h1, hh] at this
        | cons w ws => simp [hb, h1] at this
      · simp [hb] at this
  have hdone : ∀ t, t < 3 → jobsOf t o = (runnerJobs inputs rounds runs)[t]?.getD [] := by
    intro t ht
    have hx : s.threads[t]? = some (s.threads[t]'(by omega)) := List.getElem?_eq_getElem _
    obtain ⟨hb, js, hsh, hj⟩ := hi.outside t _ hx (by simp [hfree])
    have := hstuck t
    simp only [step, hx, hb] at this
    generalize htd : (s.threads[t]'(by omega)).todo = td at hsh this
    cases hsh with
    | nil => rw [List.append_nil] at hj; exact hj.symm
    | pause => simp at this
    | job => simp [hfree] at this
  exact ⟨o, hi.free hfree, hdone 0 (by omega), hdone 1 (by omega), hdone 2 (by omega)⟩

/-! ### Executions end -/

def Thread.size (x : Thread) : Nat := 2 * x.todo.length + x.busy.toList.length

def State.size (s : State) : Nat := (s.threads.map Thread.size).sum

theorem sum_set (l : List Thread) (t : Nat) (x y : Thread) (hx : l[t]? = some x) (h : y.size < x.size) :
    ((l.set t y).map Thread.size).sum < (l.map Thread.size).sum := by
  induction l generalizing t with
  | nil => simp at hx
  | cons a l ih =>
    cases t with
    | zero => simp at hx; subst hx; simpa using h
    | succ t => simp at hx; simpa using ih t hx

/-- C142: every step is progress: an execution of a runner with finitely many jobs ends. -/
theorem C142_ends {s s' : State} {t : Nat} (hs : step s t = some s') : s'.size < s.size := by
  simp only [step] at hs
  split at hs
  · cases hs
  rename_i x hx
  split at hs
  · rename_i w hb; cases hs
    exact sum_set _ _ _ _ hx (by simp [Thread.size, hb])
  · cases hs
  · rename_i r hb ht; cases hs
    exact sum_set _ _ _ _ hx (by simp [Thread.size, ht])
  · rename_i r hb ht; cases hs
    exact sum_set _ _ _ _ hx (by simp [Thread.size, ht, hb]; omega)
  · rename_i r hb ht
    split at hs
    · cases hs; exact sum_set _ _ _ _ hx (by simp [Thread.size, ht])
    · cases hs
  · rename_i r hb ht
    split at hs
    · cases hs
    · cases hs; exact sum_set _ _ _ _ hx (by simp [Thread.size, ht])

/-! ### What a user sees of it -/

/-- In a serial execution two pieces of work never overlap: right after a beginning comes its end. -/
theorem serial_adjacent (order : List (Nat × List Work)) (pre post : List Event) (e : Event) (he : e.starts = true)
    (h : pre ++ e :: post <+: serial order) : post = [] ∨ ∃ post', post = { e with starts := false } :: post' := by
  have flat : ∃ l : List (Nat × Work), serial order = l.flatMap fun x => whole x.1 x.2 := by
    refine ⟨order.flatMap fun j => j.2.map fun w => (j.1, w), ?_⟩
    simp [serial, List.flatMap_assoc, List.flatMap_map]
  obtain ⟨l, hl⟩ := flat
  rw [hl] at h
  clear hl
  obtain ⟨k, h⟩ := h
  induction l generalizing pre with
  | nil => simp at h
  | cons x l ih =>
    simp only [List.flatMap_cons, whole, List.cons_append, List.nil_append] at h
    match pre with
    | [] =>
      simp only [List.nil_append, List.cons_append, List.cons.injEq] at h
      obtain ⟨rfl, h⟩ := h
      cases post with
      | nil => exact .inl rfl
      | cons p post =>
        simp only [List.cons_append, List.cons.injEq] at h
        exact .inr ⟨post, by rw [h.1]⟩
    | [a] =>
      simp only [List.cons_append, List.nil_append, List.cons.injEq] at h
      rw [h.2.1] at he; simp at he
    | a :: b :: pre =>
      simp only [List.cons_append, List.cons.injEq] at h
      exact ih pre (by simpa [whole] using h.2.2)

/-- C142: on a runner at most one piece of work is under way at any time: between the beginning of a piece of work
and its end nothing else begins or ends. -/
theorem C142_no_overlap (inputs : List (Nat × Bool)) (rounds : List (List (Nat × BenchOutcome)))
    (runs : List (Nat × Outcome)) {s} (h : Reach (runner inputs rounds runs) s) (pre post : List Event) (e : Event)
    (he : e.starts = true) (hev : s.events = pre ++ e :: post) :
    post = [] ∨ ∃ post', post = { e with starts := false } :: post' := by
  obtain ⟨o, ho, -⟩ := C142_serial inputs rounds runs h
  exact serial_adjacent o pre post e he (hev ▸ ho)

/-! ### A case -/

/-- The goroutines move in the given order. -/
def exec (s : State) : List Nat → Option State
  | [] => some s
  | t :: ts => (step s t).bind fun s' => exec s' ts

theorem reach_of_exec {scripts} (ts : List Nat) : ∀ {s s'}, Reach scripts s → exec s ts = some s' → Reach scripts s' := by
  induction ts with
  | nil => intro s s' h he; cases he; exact h
  | cons t ts ih =>
    intro s s' h he
    simp only [exec, Option.bind_eq_some_iff] at he
    obtain ⟨s1, h1, h2⟩ := he
    exact ih (.step h h1) h2

/-- One corrupted input in the cache, a benchmark whose second case fails, a run. The benchmark takes the lock while the
run waits; the preloading comes last. -/
def sample : List (List Instr) := runner [(7, false)] [[(1, .ok), (2, .failed), (3, .ok)]] [(5, .graded), (6, .noInput)]

def sampleMoves : List Nat :=
  [2, 1, 1, 1, 1, 1, 1, 1, 1, 1, 1, 1, 1, 1, 1,   2, 2, 2, 2, 2, 2, 2, 2, 2, 2, 0, 0, 0, 0, 0, 0, 2, 2, 1, 2, 2, 2]

def sampleEnd : State :=
  { threads := [{ todo := [] }, { todo := [] }, { todo := [] }]
    events := serial [(1, [.fetch 1, .grade 1, .fetch 2, .grade 2, .release 2, .release 1]),
      (2, [.fetch 5, .grade 5, .release 5]), (0, [.fetch 7, .discard 7]), (2, [.fetch 6])] }

example : exec (start sample) sampleMoves = some sampleEnd := by decide +kernel

/-- In the middle of it the run waits for the lock. -/
example : (exec (start sample) [2, 1, 1]).map (fun s => step s 2) = some none := by decide +kernel

example : Reach sample sampleEnd := reach_of_exec sampleMoves .start (by decide +kernel)

/-- It cannot go on. -/
example : ∀ t, step sampleEnd t = none := by
  intro t
  match t with
  | 0 => rfl
  | 1 => rfl
  | 2 => rfl
  | n + 3 => simp [step, sampleEnd]

end Quark.IoLock
