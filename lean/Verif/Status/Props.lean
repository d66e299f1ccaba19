import Verif.Status.Model
import Verif.Lifecycle.Races
import Verif.Hub.Props
import Verif.Lifecycle.Forgotten

/-!
# C113, C114: metrics and status
-/

namespace Quark.Status

open Lifecycle (Reach State Event inClose)

/-! ### C113 -/

/-- The events about runs entering and leaving the grader among the queue's events: `true` for entering. -/
def traffic (es : List QueueEvent) : List Bool :=
  es.filterMap fun e => match e.type with
    | .managerAdded => some true
    | .managerRemoved => some false
    | _ => none

/-- The same among what happened: `AddRun` announces a run (grader/queue.go:553-557) and `Close` its removal (376-382). -/
def happened (evs : List Event) : List Bool :=
  evs.filterMap fun e => match e with
    | .submitted _ => some true
    | .removed _ => some false
    | _ => none

/-- The runs in the grader: those that are not closed, and those in the middle of being closed. -/
def unfinished (s : State) : Int := s.runs.countP (fun r => !r.closed) + s.threads.countP inClose

def balance (l : List Bool) : Int := l.count true - l.count false

theorem process_total (es : List QueueEvent) (m : Metrics) :
    (es.foldl Metrics.process m).gauge "grader_queue_total_length" = m.gauge "grader_queue_total_length" + balance (traffic es) := by
  induction es generalizing m with
  | nil => simp [traffic, balance]
  | cons e es ih =>
    rw [List.foldl_cons, ih]
    obtain ⟨ty, p⟩ := e
    cases ty <;> cases p <;>
      simp [Metrics.process, Metrics.gaugeAdd, Metrics.observe, gaugeNames, summaryNames, traffic, balance] <;> omega

theorem balance_append (a b : List Bool) : balance (a ++ b) = balance a + balance b := by
  simp [balance]; omega

theorem balance_happened {m : Int} {evs : List Event} {s : State} (h : Reach m evs s) :
    balance (happened evs) = unfinished s := by
  have h1 := Lifecycle.C28_gauge h
  have key : ∀ evs : List Event, balance (happened evs) =
      (evs.countP Event.isSubmitted : Int) - evs.countP Event.isRemoved := by
    intro evs
    induction evs with
    | nil => simp [happened, balance]
    | cons e evs ih =>
      have hc : happened (e :: evs) = happened [e] ++ happened evs := by
        show happened ([e] ++ evs) = _
        unfold happened
        rw [List.filterMap_append]
      rw [hc, balance_append, ih]
      cases e <;> simp [happened, balance, Event.isSubmitted, Event.isRemoved, List.countP_cons] <;> omega
  rw [key, h1]
  rfl

theorem Reach.prefix {m : Int} {evs : List Event} {s : State} (h : Reach m evs s) {n : Nat} :
    ∃ s1, Reach m (evs.take n) s1 := by
  induction h generalizing n with
  | init => exact ⟨_, by simpa using Reach.init⟩
  | @step evs s a s' e hr hs ih =>
    by_cases hn : n ≤ evs.length
    · rw [List.take_append_of_le_length hn]; exact ih
    · rw [List.take_of_length_le (by simp; omega)]
      exact ⟨_, hr.step hs⟩

theorem happened_cut (evs : List Event) (l r : List Bool) (h : happened evs = l ++ r) :
    ∃ n, happened (evs.take n) = l ∧ happened (evs.drop n) = r := by
  induction evs generalizing l with
  | nil =>
    simp [happened] at h
    exact ⟨0, by simp [happened, h.1], by simp [happened, h.2]⟩
  | cons e evs ih =>
    cases l with
    | nil => exact ⟨0, by simp [happened], by simpa using h⟩
    | cons b l =>
      have hc : happened (e :: evs) = happened [e] ++ happened evs := by
        show happened ([e] ++ evs) = _
        unfold happened
        rw [List.filterMap_append]
      have hd : ∀ n, happened ((e :: evs).take (n + 1)) = happened [e] ++ happened (evs.take n) := by
        intro n
        show happened ([e] ++ evs.take n) = _
        unfold happened
        rw [List.filterMap_append]
      rcases hh : happened [e] with _ | ⟨x, _ | ⟨y, t⟩⟩
      · rw [hc, hh] at h
        obtain ⟨n, h1, h2⟩ := ih _ h
        exact ⟨n + 1, by rw [hd, hh]; simpa using h1, by simpa using h2⟩
      · rw [hc, hh] at h
        simp only [List.cons_append, List.nil_append, List.cons.injEq] at h
        obtain ⟨n, h1, h2⟩ := ih _ h.2
        exact ⟨n + 1, by rw [hd, hh, h1, h.1]; rfl, by simpa using h2⟩
      · have : (happened [e]).length ≤ 1 := by
          unfold happened
          exact List.length_filterMap_le ..
        rw [hh] at this
        simp at this

/-- **C113.** Take any execution and the queue's events in the order in which they were accepted, the first `k` of them
before the metrics' listener was registered (C59: it receives exactly the others). The gauge is the number of runs in
the grader minus the number that were there at the registration. -/
theorem C113_gauge {m : Int} {evs : List Event} {s : State} (h : Reach m evs s) {es : List QueueEvent}
    (he : traffic es = happened evs) (k : Nat) :
    ∃ n s1, Reach m (evs.take n) s1 ∧ happened (evs.take n) = traffic (es.take k) ∧
      (metrics (es.drop k)).gauge "grader_queue_total_length" = unfinished s - unfinished s1 := by
  have hs : traffic es = traffic (es.take k) ++ traffic (es.drop k) := by
    conv_lhs => rw [← List.take_append_drop k es]
    unfold traffic
    rw [List.filterMap_append]
  obtain ⟨n, h1, h2⟩ := happened_cut evs _ _ (he.symm.trans hs)
  obtain ⟨s1, hs1⟩ := Reach.prefix h (n := n)
  refine ⟨n, s1, hs1, h1, ?_⟩
  rw [metrics, process_total, ← balance_happened h, ← balance_happened hs1, ← he, hs, balance_append, h1]
  simp

/-- **C113** (registered in time). If no run had been added before the listener was registered, the gauge is the number
of runs in the grader; so it is never negative, and 0 when there are none. -/
theorem C113_in_time_partial {m : Int} {evs : List Event} {s : State} (h : Reach m evs s) {es : List QueueEvent}
    (he : traffic es = happened evs) (k : Nat) (hk : true ∉ traffic (es.take k)) :
    (metrics (es.drop k)).gauge "grader_queue_total_length" = unfinished s ∧ 0 ≤ (metrics (es.drop k)).gauge "grader_queue_total_length" := by
  obtain ⟨n, s1, hr, hh, hg⟩ := C113_gauge h he k
  have h0 : unfinished s1 = 0 := by
    have h1 := balance_happened hr
    rw [hh, balance, List.count_eq_zero.2 hk] at h1
    have h2 : (0 : Int) ≤ unfinished s1 := by unfold unfinished; omega
    omega
  have h2 : (0 : Int) ≤ unfinished s := by unfold unfinished; omega
  rw [hg, h0]
  omega

/-- **C113** (with the delivery of events). As `C113_gauge`, for the listener `c` of the queue manager's goroutine: it was
registered by call `t`, which was made after `acts0` and has returned after `acts1`. Once the goroutine has nothing left
to pass on and the listener has taken what it was sent, the gauge is the number of runs in the grader minus the
number at some time after all but the last of the events accepted before the call, and no later than its return. -/
theorem C113_delivered {m : Int} {evs : List Event} {s : State} (h : Reach m evs s) (cap : Nat → Nat)
    (acts0 acts1 acts' : List (Hub.Act QueueEvent)) (t c : Nat)
    (hd : Hub.Distinct (Hub.run cap (acts0 ++ acts1 ++ acts')).calls)
    (h0 : (Hub.run cap acts0).calls.length ≤ t)
    (hc : (Hub.run cap (acts0 ++ acts1)).calls[t]? = some (.add c))
    (ht : (Hub.run cap (acts0 ++ acts1)).threads[t]? = some .returned)
    (hq : Hub.Quiet (Hub.run cap (acts0 ++ acts1 ++ acts')))
    (hb : (Hub.run cap (acts0 ++ acts1 ++ acts')).buf c = [])
    (he : traffic ((Hub.run cap (acts0 ++ acts1 ++ acts')).accepted.map Prod.snd) = happened evs) :
    ∃ k n s1, (Hub.run cap acts0).accepted.length ≤ k + 1 ∧
      k ≤ (Hub.run cap (acts0 ++ acts1)).accepted.length ∧ Reach m (evs.take n) s1 ∧
      happened (evs.take n) =
        traffic (((Hub.run cap (acts0 ++ acts1 ++ acts')).accepted.map Prod.snd).take k) ∧
      (metrics ((Hub.run cap (acts0 ++ acts1 ++ acts')).taken c)).gauge "grader_queue_total_length" = unfinished s - unfinished s1 := by
  obtain ⟨k, hk1, hk2, hr⟩ := Hub.C59_later_events cap acts0 acts1 acts' t c hd h0 hc ht
  obtain ⟨n, s1, h1, h2, h3⟩ := C113_gauge h he k
  refine ⟨k, n, s1, hk2, hk1, h1, h2, ?_⟩
  have h4 := hr.2.1 hq
  rw [Hub.received, hb, List.append_nil] at h4
  rw [h4, h3]

/-- **C113** (registered too late). The servers for contestants' own runs and for runners are started before the listener
is registered (cmd/omegaup-grader/main.go:229-266): a run added in between is missed, and the gauge stays at -1 when the grader is empty. -/
theorem C113_negative : ∃ (m : Int) (evs : List Event) (s : State) (es : List QueueEvent) (k : Nat), Reach m evs s ∧
    traffic es = happened evs ∧ unfinished s = 0 ∧ (metrics (es.drop k)).gauge "grader_queue_total_length" = -1 := by
  obtain ⟨p, hp⟩ : ∃ p, Lifecycle.exec 3 (Lifecycle.handOut ++ [.upload 1] ++ List.replicate 11 (.step 3)) = some p :=
    ⟨_, rfl⟩
  refine ⟨3, p.1, p.2, [⟨.managerAdded, .ephemeral⟩, ⟨.queueAdded, .ephemeral⟩, ⟨.queueRemoved, .ephemeral⟩,
    ⟨.managerRemoved, .ephemeral⟩], 1, Lifecycle.reach_of_exec hp, ?_, ?_, ?_⟩
  · cases hp; decide
  · cases hp; decide
  · decide

/-! ### C154 -/

/-- The retried and the abandoned runs are announced. -/
def countOf (ty : EventType) (l : List Report) : Nat :=
  l.countP fun r => match r with | .event e => e.type == ty | _ => false

def judgeErrors (l : List Report) : Nat := l.countP fun r => match r with | .finished v => v == "JE" | _ => false
def injections (l : List Report) : Nat := l.countP fun r => match r with | .injected => true | _ => false
def ephemerals (l : List Report) : Nat :=
  l.countP fun r => match r with | .ephemeral => true | .ciTest => true | _ => false
def ciJobs (l : List Report) : Nat := l.countP fun r => match r with | .ciJob => true | _ => false
def leftQueue (p : Priority) (l : List Report) : Nat :=
  l.countP fun r => match r with | .event e => e == ⟨.queueRemoved, p⟩ | _ => false

theorem reported_key (l : List Report) (m : Metrics) :
    (l.foldl Metrics.report m).counter "grader_runs_je" = m.counter "grader_runs_je" + judgeErrors l ∧
    (l.foldl Metrics.report m).counter "grader_runs_total" = m.counter "grader_runs_total" + injections l ∧
    (l.foldl Metrics.report m).counter "grader_ephemeral_runs_total" =
      m.counter "grader_ephemeral_runs_total" + ephemerals l ∧
    (l.foldl Metrics.report m).counter "grader_ci_jobs_total" = m.counter "grader_ci_jobs_total" + ciJobs l ∧
    (l.foldl Metrics.report m).counter "grader_runs_retry" = m.counter "grader_runs_retry" ∧
    (l.foldl Metrics.report m).counter "grader_runs_abandoned" = m.counter "grader_runs_abandoned" ∧
    (l.foldl Metrics.report m).gauge "grader_queue_total_length" = m.gauge "grader_queue_total_length" +
      countOf .managerAdded l - countOf .managerRemoved l ∧
    (∀ n, n ≠ "grader_queue_total_length" → (l.foldl Metrics.report m).gauge n = m.gauge n) ∧
    (l.foldl Metrics.report m).observed "grader_queue_delay_seconds" =
      m.observed "grader_queue_delay_seconds" + countOf .managerRemoved l ∧
    (l.foldl Metrics.report m).observed "grader_queue_ephemeral_delay_seconds" =
      m.observed "grader_queue_ephemeral_delay_seconds" + leftQueue .ephemeral l ∧
    (l.foldl Metrics.report m).observed "grader_queue_low_delay_seconds" =
      m.observed "grader_queue_low_delay_seconds" + leftQueue .low l ∧
    (l.foldl Metrics.report m).observed "grader_queue_normal_delay_seconds" =
      m.observed "grader_queue_normal_delay_seconds" + leftQueue .normal l ∧
    (l.foldl Metrics.report m).observed "grader_queue_high_delay_seconds" =
      m.observed "grader_queue_high_delay_seconds" + leftQueue .high l := by
  induction l generalizing m with
  | nil => simp [judgeErrors, injections, ephemerals, ciJobs, countOf, leftQueue]
  | cons r l ih =>
    obtain ⟨i1, i2, i3, i4, i5, i6, i7, i8, i9, i10, i11, i12, i13⟩ := ih (m.report r)
    simp only [List.foldl_cons]
    rw [i1, i2, i3, i4, i5, i6, i7, i9, i10, i11, i12, i13]
    have h8 : ∀ n, n ≠ "grader_queue_total_length" → (m.report r).gauge n = m.gauge n := by
      intro n hn
      cases r with
      | event e =>
        obtain ⟨ty, p⟩ := e
        cases ty <;> cases p <;>
          simp [Metrics.report, Metrics.process, Metrics.gaugeAdd, Metrics.observe, gaugeNames, summaryNames, hn]
      | finished v =>
        by_cases hv : v = "JE" <;> simp [Metrics.report, Metrics.counterAdd, counterNames, hv]
      | _ => simp [Metrics.report, Metrics.counterAdd, counterNames]
    clear i1 i2 i3 i4 i5 i6 i7 i9 i10 i11 i12 i13 ih
    refine ⟨?_, ?_, ?_, ?_, ?_, ?_, ?_, fun n hn => (i8 n hn).trans (h8 n hn), ?_, ?_, ?_, ?_, ?_⟩
    all_goals
      cases r with
      | event e =>
        obtain ⟨ty, p⟩ := e
        cases ty <;> cases p <;>
          simp [Metrics.report, Metrics.process, Metrics.gaugeAdd, Metrics.observe, gaugeNames, summaryNames,
            judgeErrors, injections, ephemerals, ciJobs, countOf, leftQueue] <;> omega
      | finished v =>
        by_cases hv : v = "JE" <;>
          simp [Metrics.report, Metrics.counterAdd, counterNames, hv,
            judgeErrors, injections, ephemerals, ciJobs, countOf, leftQueue] <;> omega
      | _ =>
        simp [Metrics.report, Metrics.counterAdd, counterNames,
            judgeErrors, injections, ephemerals, ciJobs, countOf, leftQueue] <;> omega

/-- **C154** (what is counted). After any history of reports: the counters of runs, of judge errors, of ephemeral runs
(the tests of CI jobs included) and of CI jobs are the numbers of those; each summary of delays has one value for each
run that left the grader, or that left the queue with that priority; and the total length is the number of runs
announced as added minus those announced as removed. -/
theorem C154_counted_partial (l : List Report) :
    (reported l).counter "grader_runs_total" = injections l ∧
    (reported l).counter "grader_runs_je" = judgeErrors l ∧
    (reported l).counter "grader_ephemeral_runs_total" = ephemerals l ∧
    (reported l).counter "grader_ci_jobs_total" = ciJobs l ∧
    (reported l).observed "grader_queue_delay_seconds" = countOf .managerRemoved l ∧
    (reported l).observed "grader_queue_ephemeral_delay_seconds" = leftQueue .ephemeral l ∧
    (reported l).observed "grader_queue_low_delay_seconds" = leftQueue .low l ∧
    (reported l).observed "grader_queue_normal_delay_seconds" = leftQueue .normal l ∧
    (reported l).observed "grader_queue_high_delay_seconds" = leftQueue .high l ∧
    (reported l).gauge "grader_queue_total_length" = countOf .managerAdded l - countOf .managerRemoved l := by
  obtain ⟨i1, i2, i3, i4, i5, i6, i7, i8, i9, i10, i11, i12, i13⟩ := reported_key l {}
  unfold reported
  rw [i1, i2, i3, i4, i7, i9, i10, i11, i12, i13]
  simp

/-- **C154** (what is never counted). Whatever happens, the counters of retried and of abandoned runs and the gauges of
the lengths of the four queues stay at 0: the first two are counters that are updated as gauges, and the others are
never updated. -/
theorem C154_never_counted (l : List Report) :
    (reported l).counter "grader_runs_retry" = 0 ∧ (reported l).counter "grader_runs_abandoned" = 0 ∧
    (reported l).gauge "grader_queue_ephemeral_length" = 0 ∧ (reported l).gauge "grader_queue_low_length" = 0 ∧
    (reported l).gauge "grader_queue_normal_length" = 0 ∧ (reported l).gauge "grader_queue_high_length" = 0 := by
  obtain ⟨-, -, -, -, i5, i6, -, i8, -⟩ := reported_key l {}
  unfold reported
  exact ⟨i5, i6, i8 _ (by decide), i8 _ (by decide), i8 _ (by decide), i8 _ (by decide)⟩

/-- **C154** (the full claim is false). A run was put into the queue of low priority, retried and abandoned: the
metrics show neither. -/
theorem C154_false : ∃ l : List Report, countOf .retried l = 1 ∧ countOf .abandoned l = 1 ∧ countOf .queueAdded l = 1 ∧
    (reported l).counter "grader_runs_retry" ≠ countOf .retried l ∧
    (reported l).counter "grader_runs_abandoned" ≠ countOf .abandoned l ∧
    (reported l).gauge "grader_queue_low_length" ≠ countOf .queueAdded l - leftQueue .low l :=
  ⟨[.event ⟨.managerAdded, .low⟩, .event ⟨.queueAdded, .low⟩, .event ⟨.retried, .low⟩, .event ⟨.abandoned, .low⟩],
    by decide, by decide, by decide, by decide, by decide, by decide⟩

/-- The two views of the metrics agree. -/
theorem reported_events (es : List QueueEvent) : reported (es.map .event) = metrics es := by
  unfold reported metrics
  rw [List.foldl_map]
  rfl

/-- Two finished runs, one with a judge error; a request and a test of a CI job. -/
example : ((reported [.injected, .finished "AC", .injected, .finished "JE", .ephemeral, .ciJob, .ciTest]).counter
    "grader_runs_total", (reported [.injected, .finished "AC", .injected, .finished "JE", .ephemeral, .ciJob, .ciTest]).counter
    "grader_runs_je", (reported [.injected, .finished "AC", .injected, .finished "JE", .ephemeral, .ciJob, .ciTest]).counter
    "grader_ephemeral_runs_total") = (2, 1, 2) := by decide

/-! ### C114 -/

/-- **C114** (running). The list of running runs has one entry for every attempt that was handed to a runner and has not
left the monitor since, with the run it was handed out for, and nothing else. -/
theorem C114_running_partial {m : Int} {evs : List Event} {s : State} (h : Reach m evs s) {order : List Nat}
    (ho : Iterates s order) :
    (runData s order).Nodup ∧ (∀ a r r', (a, r) ∈ runData s order → (a, r') ∈ runData s order → r = r') ∧
    ∀ a r, (a, r) ∈ runData s order ↔
      ∃ before after, evs = before ++ .handed r a :: after ∧ .dropped a ∉ after := by
  obtain ⟨own, hid⟩ := h.ids
  have hmem : ∀ a r, (a, r) ∈ runData s order ↔
      ∃ i f, s.mapping a = some i ∧ s.inflights[i]? = some f ∧ f.run = r := by
    intro a r
    unfold runData
    rw [List.mem_filterMap]
    constructor
    · rintro ⟨b, -, hb⟩
      obtain ⟨i, hi, hb⟩ := Option.bind_eq_some_iff.1 hb
      obtain ⟨f, hf, hb⟩ := Option.map_eq_some_iff.1 hb
      cases hb
      exact ⟨i, f, hi, hf, rfl⟩
    · rintro ⟨i, f, hi, hf, rfl⟩
      exact ⟨a, (ho.2 a).2 (by rw [hi]; rfl), by rw [hi]; simp [hf]⟩
  refine ⟨?_, ?_, ?_⟩
  · unfold runData
    refine List.Nodup.filterMap ?_ ho.1
    intro a a' b hb hb'
    obtain ⟨i, _, hb⟩ := Option.bind_eq_some_iff.1 hb
    obtain ⟨f, _, rfl⟩ := Option.map_eq_some_iff.1 hb
    obtain ⟨i', _, hb'⟩ := Option.bind_eq_some_iff.1 hb'
    obtain ⟨f', _, hb'⟩ := Option.map_eq_some_iff.1 hb'
    simp only [Prod.mk.injEq] at hb'
    exact hb'.1.symm
  · intro a r r' h1 h2
    obtain ⟨i, f, hi, hf, rfl⟩ := (hmem a r).1 h1
    obtain ⟨i', f', hi', hf', rfl⟩ := (hmem a r').1 h2
    rw [hi] at hi'; cases hi'
    rw [hf] at hf'; cases hf'
    rfl
  · intro a r
    rw [hmem]
    have hown : ∀ r', Event.handed r' a ∈ evs → own a = r' := fun r' hr' =>
      (hid.events _ hr' r' a rfl).1
    have hlive := hid.live a
    constructor
    · rintro ⟨i, f, hi, hf, rfl⟩
      rw [hi] at hlive
      obtain ⟨before, r', after, h1, h2⟩ := Lifecycle.live_split hlive
      obtain ⟨g, hg, hga⟩ := hid.mapping a i hi
      rw [hf] at hg; cases hg
      have h3 := (hid.inflights f (List.mem_of_getElem? hf)).1
      rw [hga] at h3
      have h4 := hown r' (by rw [h1]; simp)
      rw [h3] at h4
      subst h4
      exact ⟨before, after, h1, h2⟩
    · rintro ⟨before, after, h1, h2⟩
      have hl : Lifecycle.live a evs = true := by
        rw [h1]
        clear h1 hlive hown
        induction after using List.reverseRecOn with
        | nil => rw [Lifecycle.live_snoc]; simp
        | append_singleton l e ih =>
          rw [← List.cons_append, ← List.append_assoc, Lifecycle.live_snoc]
          have ih := ih (fun hc => h2 (List.mem_append_left _ hc))
          cases e <;> simp only [ih, Bool.true_or, Bool.true_and]
          rename_i b
          have : b ≠ a := fun hb => h2 (by rw [hb]; simp)
          simpa using this
      rw [hl] at hlive
      obtain ⟨i, hi⟩ := Option.isSome_iff_exists.1 hlive.symm
      obtain ⟨g, hg, hga⟩ := hid.mapping a i hi
      refine ⟨i, g, hi, hg, ?_⟩
      have h3 := (hid.inflights g (List.mem_of_getElem? hg)).1
      rw [hga] at h3
      rw [← h3]
      exact hown r (by rw [h1]; simp)

def isQueued : Event → Bool
  | .queued _ => true
  | _ => false

def isTaken : Event → Bool
  | .taken _ => true
  | _ => false

/-- **C114** (queued). `RunQueueLength` is the number of times a run was put into the queue minus the number of times one was taken
out. -/
theorem C114_queued {m : Int} {evs : List Event} {s : State} (h : Reach m evs s) :
    queueLength s + evs.countP isTaken = evs.countP isQueued := by
  unfold queueLength
  induction h with
  | init => rfl
  | step hr hs ih =>
    rw [List.countP_append, List.countP_append]
    cases (Lifecycle.step_inv hs).1
    case submit => simpa [isQueued, isTaken] using ih
    case take k r hk =>
      have hlt := (List.getElem?_eq_some_iff.1 hk).1
      simp [isQueued, isTaken, List.length_eraseIdx_of_lt hlt]
      omega
    case rejected => simpa [isQueued, isTaken] using ih
    case resolved => simpa [isQueued, isTaken] using ih
    case quiet hq => cases hq <;> simpa [isQueued, isTaken, State.goto] using ih
    case write hw => cases hw <;> simpa [isQueued, isTaken, State.goto, State.modRun] using ih
    case crash hc =>
      rcases hc with ⟨_, _, rfl⟩ | ⟨_, rfl⟩ <;> simpa [isQueued, isTaken, State.goto] using ih
    case clPanic => simpa [isQueued, isTaken, State.goto] using ih
    case rqRemove => simpa [isQueued, isTaken, State.goto, Lifecycle.queue_removeAttempt] using ih
    case clRemove => simpa [isQueued, isTaken, State.goto, Lifecycle.queue_removeAttempt] using ih
    case newId => simpa [isQueued, isTaken, State.goto] using ih
    case add => simp [isQueued, isTaken, State.goto]; omega
    case enqueue => simp [isQueued, isTaken, State.goto]; omega
    case register => simpa [isQueued, isTaken] using ih
    case connect => simpa [isQueued, isTaken, State.goto] using ih

/-- **C114** (not a snapshot). The two numbers are read one after another: a run may be counted in neither, or in
both. -/
theorem C114_not_a_snapshot :
    (∃ evs s1 evs' s2, Reach 3 evs s1 ∧ Reach 3 (evs ++ evs') s2 ∧ Iterates s1 [] ∧
      s2.runs.countP (fun r => !r.closed) = 1 ∧ status s1 s2 [] = ([], 0)) ∧
    (∃ evs s1 evs' s2, Reach 3 evs s1 ∧ Reach 3 (evs ++ evs') s2 ∧ Iterates s1 [1] ∧
      s2.runs.length = 1 ∧ status s1 s2 [1] = ([0], 1)) := by
  constructor
  · obtain ⟨p, hp⟩ : ∃ p, Lifecycle.exec 3 [.submit, .step 0] = some p := ⟨_, rfl⟩
    obtain ⟨q, hq⟩ : ∃ q, Lifecycle.exec 3 Lifecycle.handOut = some q := ⟨_, rfl⟩
    have h2 := Lifecycle.reach_of_exec hq
    refine ⟨p.1, p.2, q.1.drop 2, q.2, Lifecycle.reach_of_exec hp, ?_, ?_, ?_, ?_⟩
    · rw [show p.1 ++ q.1.drop 2 = q.1 by cases hp; cases hq; decide]
      exact h2
    · cases hp
      exact ⟨List.nodup_nil, fun a => by simp [State.goto]⟩
    · cases hq; decide
    · cases hq; cases hp; decide
  · obtain ⟨p, hp⟩ : ∃ p, Lifecycle.exec 3 Lifecycle.handOut = some p := ⟨_, rfl⟩
    obtain ⟨q, hq⟩ : ∃ q, Lifecycle.exec 3 (Lifecycle.handOut ++ [.upload 1, .retry 3] ++
      List.replicate 10 (.step 3)) = some q := ⟨_, rfl⟩
    have h2 := Lifecycle.reach_of_exec hq
    refine ⟨p.1, p.2, q.1.drop 5, q.2, Lifecycle.reach_of_exec hp, ?_, ?_, ?_, ?_⟩
    · rw [show p.1 ++ q.1.drop 5 = q.1 by cases hp; cases hq; decide]
      exact h2
    · cases hp
      refine ⟨by decide, fun a => ?_⟩
      by_cases ha : a = 1
      · subst ha; simp [Function.update, State.goto, State.modRun]
      · simp [Function.update, State.goto, State.modRun, ha]
    · cases hq; decide
    · cases hq; cases hp; decide

/-- A state in which `C114_running_partial` lists something: run 0 is in flight as attempt 1. -/
example : ∃ evs s, Reach 3 evs s ∧ runData s [1] = [(1, 0)] ∧ queueLength s = 0 := by
  obtain ⟨p, hp⟩ : ∃ p, Lifecycle.exec 3 Lifecycle.handOut = some p := ⟨_, rfl⟩
  exact ⟨p.1, p.2, Lifecycle.reach_of_exec hp, by cases hp; decide, by cases hp; decide⟩

/-- `C113_in_time_partial` with a listener that was registered first. -/
example : ∃ evs s es, Reach 3 evs s ∧ traffic es = happened evs ∧ true ∉ traffic (es.take 0) ∧
    (metrics (es.drop 0)).gauge "grader_queue_total_length" = 1 := by
  obtain ⟨p, hp⟩ : ∃ p, Lifecycle.exec 3 Lifecycle.handOut = some p := ⟨_, rfl⟩
  exact ⟨p.1, p.2, [⟨.managerAdded, .normal⟩, ⟨.queueAdded, .normal⟩], Lifecycle.reach_of_exec hp,
    by cases hp; decide, by decide, by decide⟩

end Quark.Status
