import Verif.Lifecycle.Props

/-!
# What races do

Concrete executions that break C24, C25, C27, C29 and C66, and orderly executions that show that
the hypotheses of the theorems are met. Each is a schedule run by the model.
-/

namespace Quark.Lifecycle

/-- Submit a run and hand it to a runner: run 0, attempt 1. Thread 0 is `AddRun`, 1 is `GetRun`, 2 the
watchdog. -/
def handOut : List Act := [.submit, .step 0, .take 0, .step 1, .step 1]

/-- Two uploads fail at the same time: both read `tries` before either writes it. Threads 3 and 4. -/
def doubleFailure : List Act := handOut ++
  [.upload 1, .upload 1, .retry 3, .retry 4] ++
  -- the first handler removes the attempt and reads `tries`
  [.step 3, .step 3, .step 3, .step 3] ++
  -- the second finds no monitor and reads the same `tries`
  [.step 4, .step 4] ++
  -- both write, test, draw a new identifier and enqueue
  [.step 3, .step 3, .step 3, .step 3, .step 3, .step 3, .step 4, .step 4, .step 4, .step 4, .step 4, .step 4]

/-- C24 fails with races: with `MaxGradeRetries = 2` the run is handed out three times. -/
theorem C24_race_exceeds_retries :
    ∃ evs s, Reach 2 evs s ∧ evs.countP (Event.hands 0) = 3 := by
  obtain ⟨p, hp⟩ : ∃ p, exec 2 (doubleFailure ++
    [.take 0, .take 0, .step 5, .step 5, .step 6, .step 6]) = some p := ⟨_, rfl⟩
  exact ⟨p.1, p.2, reach_of_exec hp, by cases hp; decide⟩

/-- C25 fails with races: attempt 3 is handed out twice, and an upload for it is accepted after it was
dropped. (The run is in the queue twice; the second copy is handed out under the same identifier.) -/
theorem C25_race_revives_attempt :
    ∃ pre post s, Reach 2 (pre ++ .resolved 0 3 :: post) s ∧ .dropped 3 ∈ pre ∧
      pre.count (.handed 0 3) = 2 := by
  obtain ⟨p, hp⟩ : ∃ p, exec 2 (doubleFailure ++
    [.take 0, .step 5, .step 5, .upload 3, .step 7, .step 7, .step 7, .step 7, .step 7, .step 7] ++
    [.take 0, .step 8, .step 8, .upload 3]) = some p := ⟨_, rfl⟩
  refine ⟨p.1.dropLast, [], p.2, ?_, by cases hp; decide, by cases hp; decide⟩
  rw [show p.1.dropLast ++ [Event.resolved 0 3] = p.1 by cases hp; decide]
  exact reach_of_exec hp

/-- C27 fails for runs that are given up, even without races: with `MaxGradeRetries = 1` the run is handed
out once, times out and is closed. Its files were written and its Ready channel was closed, but it was
never handed to the post-processor, and nobody is left to do it. -/
theorem C27_abandoned_not_processed :
    ∃ evs s, ReachOrderly 1 evs s ∧ .removed 0 ∈ evs ∧ .ready 0 ∈ evs ∧ .notPersisted 0 ∉ evs ∧
      .posted 0 ∉ evs ∧ s.queue = [] ∧ ∀ x ∈ s.threads, x = .done := by
  obtain ⟨p, hp⟩ : ∃ p, execOrderly 1 (handOut ++ [.fail 2] ++ List.replicate 13 (.step 2)) = some p :=
    ⟨_, rfl⟩
  exact ⟨p.1, p.2, reachOrderly_of_exec hp, by cases hp; decide, by cases hp; decide, by cases hp; decide,
    by cases hp; decide, by cases hp; decide, by cases hp; decide⟩

/-- C29 and C27 fail with races: the watchdog requeues the run while its result is being uploaded. The
run ends up closed and in the queue, and the result, although written, is not handed to the
post-processor. -/
theorem C29_race_closed_and_queued :
    ∃ evs s, Reach 3 evs s ∧ .uploaded 0 1 ∈ evs ∧ .removed 0 ∈ evs ∧ .notPersisted 0 ∉ evs ∧
      .posted 0 ∉ evs ∧ 0 ∈ s.queue ∧ (s.runs[0]?).map (·.closed) = some true ∧
      ∀ x ∈ s.threads, x = .done := by
  obtain ⟨p, hp⟩ : ∃ p, exec 3 (handOut ++ [.upload 1, .fail 2] ++ List.replicate 10 (.step 2) ++
    List.replicate 8 (.step 3)) = some p := ⟨_, rfl⟩
  exact ⟨p.1, p.2, reach_of_exec hp, by cases hp; decide, by cases hp; decide, by cases hp; decide,
    by cases hp; decide, by cases hp; decide, by cases hp; decide, by cases hp; decide⟩

/-- C66 fails: the watchdog fires while a failed upload is being requeued. Both see that the run has a
monitor, the handler removes it, and the watchdog dereferences nil outside of net/http. -/
theorem C66_race_crashes_grader : ∃ evs s, Reach 3 evs s ∧ s.crashed = true := by
  obtain ⟨p, hp⟩ : ∃ p, exec 3 (handOut ++ [.upload 1, .fail 2, .step 2, .retry 3, .step 3, .step 3, .step 3,
    .step 2]) = some p := ⟨_, rfl⟩
  exact ⟨p.1, p.2, reach_of_exec hp, by cases hp; rfl⟩

/-- A judge error, a second attempt and a result: an orderly execution that meets the hypotheses of the
theorems, with everything done once. -/
example : ∃ evs s, ReachOrderly 3 evs s ∧ evs.countP (Event.hands 0) = 2 ∧ .judgeError 0 1 ∈ evs ∧
    .dropped 1 ∈ evs ∧ .resolved 0 2 ∈ evs ∧ .rejected 1 ∈ evs ∧ .uploaded 0 2 ∈ evs ∧ .removed 0 ∈ evs ∧
    .notPersisted 0 ∉ evs ∧ evs.count (.posted 0) = 1 ∧ evs.count (.ready 0) = 1 ∧
    evs.count (.released 0) = 1 ∧ (s.runs[0]?).map (·.closed) = some true := by
  obtain ⟨p, hp⟩ : ∃ p, execOrderly 3 (handOut ++ [.upload 1, .judgeError 3] ++ List.replicate 10 (.step 3) ++
    [.take 0, .step 4, .step 4, .upload 1, .upload 2, .step 6] ++ List.replicate 10 (.step 6)) = some p :=
    ⟨_, rfl⟩
  exact ⟨p.1, p.2, reachOrderly_of_exec hp, by cases hp; decide, by cases hp; decide, by cases hp; decide,
    by cases hp; decide, by cases hp; decide, by cases hp; decide, by cases hp; decide, by cases hp; decide,
    by cases hp; decide, by cases hp; decide, by cases hp; decide, by cases hp; decide⟩

/-- A run in the middle of `Close` keeps the gauge up: two runs, one of them closed and not reported. -/
example : ∃ evs s, Reach 3 evs s ∧ (evs.countP Event.isSubmitted : Int) - evs.countP Event.isRemoved = 2 ∧
    s.runs.countP (fun r => !r.closed) = 1 ∧ s.threads.countP inClose = 1 := by
  obtain ⟨p, hp⟩ : ∃ p, exec 3 (handOut ++ [.submit, .upload 1, .step 4, .step 4, .step 4]) = some p :=
    ⟨_, rfl⟩
  exact ⟨p.1, p.2, reach_of_exec hp, by cases hp; decide, by cases hp; decide, by cases hp; decide⟩

/-! ## C67: every run in flight is watched -/

/-- Whether a goroutine is the watchdog of entry `i`, still waiting. -/
def Thread.watches (i : Nat) : Thread → Bool
  | .watchConnect j | .watchReady j => j == i
  | _ => false

/-- Entries still in the monitor have not been signalled, and someone takes care of them. -/
structure Watched (s : State) : Prop where
  unsignalled : ∀ a i f, s.mapping a = some i → s.inflights[i]? = some f → f.ready = false
  watch : ∀ a i f, s.mapping a = some i → s.inflights[i]? = some f →
    (∃ x ∈ s.threads, x.watches i = true) ∨ ∃ x ∈ s.threads, x.finishing f.run = true

theorem Watched.move {s s' : State} (h : Watched s) {t : Nat} {y x : Thread} {extra : List Thread}
    (ht : s.threads[t]? = some y) (hthr : s'.threads = s.threads.set t x ++ extra)
    (hmap : ∀ a i f, s'.mapping a = some i → s'.inflights[i]? = some f → ∃ g, s.mapping a = some i ∧
      s.inflights[i]? = some g ∧ g.run = f.run ∧ g.ready = f.ready)
    (hyx : ∀ a i f, s.mapping a = some i → s.inflights[i]? = some f →
      (y.watches i = true → x.watches i = true ∨ x.finishing f.run = true) ∧
      (y.finishing f.run = true → x.finishing f.run = true)) : Watched s' := by
  have hlt := (List.getElem?_eq_some_iff.mp ht).1
  have hx : x ∈ s'.threads := by
    rw [hthr]
    exact List.mem_append_left _ (List.mem_iff_getElem.mpr ⟨t, by simpa using hlt, by simp⟩)
  have keep : ∀ z ∈ s.threads, z ∈ s'.threads ∨ z = y := by
    intro z hz
    obtain ⟨u, hu, rfl⟩ := List.getElem_of_mem hz
    by_cases hut : u = t
    · right
      subst hut
      exact (List.getElem?_eq_some_iff.mp ht).2
    · left
      rw [hthr]
      refine List.mem_append_left _ (List.mem_iff_getElem.mpr ⟨u, by simpa using hu, ?_⟩)
      rw [List.getElem_set_ne (Ne.symm hut)]
  constructor
  · intro a i f h1 h2
    obtain ⟨g, h3, h4, -, h5⟩ := hmap a i f h1 h2
    rw [← h5]; exact h.unsignalled a i g h3 h4
  · intro a i f h1 h2
    obtain ⟨g, h3, h4, h5, -⟩ := hmap a i f h1 h2
    obtain ⟨k1, k2⟩ := hyx a i g h3 h4
    rw [h5] at k1 k2
    rcases h.watch a i g h3 h4 with ⟨z, hz, hzi⟩ | ⟨z, hz, hzi⟩
    · rcases keep z hz with hz | rfl
      · exact .inl ⟨z, hz, hzi⟩
      · exact (k1 hzi).imp (fun h => ⟨x, hx, h⟩) (fun h => ⟨x, hx, h⟩)
    · rw [h5] at hzi
      rcases keep z hz with hz | rfl
      · exact .inr ⟨z, hz, hzi⟩
      · exact .inr ⟨x, hx, k2 hzi⟩

theorem Watched.same {s s' : State} (h : Watched s) {extra : List Thread}
    (hthr : s'.threads = s.threads ++ extra)
    (hmap : ∀ a i f, s'.mapping a = some i → s'.inflights[i]? = some f → ∃ g, s.mapping a = some i ∧
      s.inflights[i]? = some g ∧ g.run = f.run ∧ g.ready = f.ready) : Watched s' := by
  constructor
  · intro a i f h1 h2
    obtain ⟨g, h3, h4, -, h5⟩ := hmap a i f h1 h2
    rw [← h5]; exact h.unsignalled a i g h3 h4
  · intro a i f h1 h2
    obtain ⟨g, h3, h4, h5, -⟩ := hmap a i f h1 h2
    have := h.watch a i g h3 h4
    rw [h5] at this
    refine this.imp ?_ ?_ <;>
    · rintro ⟨z, hz, hzi⟩
      exact ⟨z, by rw [hthr]; exact List.mem_append_left _ hz, hzi⟩

theorem token_back {l : List Inflight} {i j : Nat} {f g k : Inflight} (hf : l[i]? = some f)
    (hg : g.run = f.run ∧ g.ready = f.ready) (hk : (l.set i g)[j]? = some k) :
    ∃ k', l[j]? = some k' ∧ k'.run = k.run ∧ k'.ready = k.ready := by
  rw [List.getElem?_set] at hk
  split_ifs at hk with h1 h2
  · subst h1; cases hk; exact ⟨f, hf, hg.1.symm, hg.2.symm⟩
  · exact ⟨k, hk, rfl, rfl⟩

/-- A goroutine requeuing or closing a run in flight has not finished. -/
theorem Tidy.notYet {m : Int} {evs : List Event} {s : State} (h : Tidy m evs s) {a i : Nat} {f : Inflight}
    (h1 : s.mapping a = some i) (h2 : s.inflights[i]? = some f) :
    ∃ run, s.runs[f.run]? = some run ∧ run.monitor = true ∧
      (∀ y ∈ s.threads, y.on f.run = true → Fine m f.run run evs (.thread y)) := by
  obtain ⟨g, run, h3, h4, h5, h6⟩ := h.reg.map a i h1
  rw [h2] at h3; cases h3
  refine ⟨run, h4, h6, fun y hy hyr => ?_⟩
  obtain ⟨run', hrun', hf⟩ := h.held y hy _ hyr
  rw [h4] at hrun'; cases hrun'
  exact hf

theorem Watched.step {m : Int} {own : Nat → Nat} {evs : List Event} {s s' : State} {e : Event}
    (hid : Ids own evs s) (htd : Tidy m evs s) (h : Watched s) (hs : Step m s s' e) :
    Watched s' := by
  have hsame : ∀ a i f, s.mapping a = some i → s.inflights[i]? = some f → ∃ g, s.mapping a = some i ∧
      s.inflights[i]? = some g ∧ g.run = f.run ∧ g.ready = f.ready := fun a i f h1 h2 => ⟨f, h1, h2, rfl, rfl⟩
  -- a goroutine that leaves
  have leave : ∀ {t : Nat} {y : Thread}, s.threads[t]? = some y → (∀ q, y.watches q = false) →
      (∀ r (run : Run), y.on r = true → run.monitor = true → ¬ Fine m r run evs (.thread y)) →
      (∀ r, y.finishing r = true → y.on r = true) →
      ∀ x a i f, s.mapping a = some i → s.inflights[i]? = some f →
      (y.watches i = true → Thread.watches i x = true ∨ x.finishing f.run = true) ∧
      (y.finishing f.run = true → x.finishing f.run = true) := by
    intro t y ht hw hf hon x a i f h1 h2
    obtain ⟨run, h3, h4, h5⟩ := htd.notYet h1 h2
    exact ⟨fun hc => (by rw [hw] at hc; cases hc),
      fun hc => absurd (h5 y (List.mem_of_getElem? ht) (hon _ hc)) (hf _ run (hon _ hc) h4)⟩
  have drop : ∀ {t a r : Nat} {run : Run} {y x : Thread}, s.threads[t]? = some y → s.runs[r]? = some run →
      run.monitor = true → a = run.attempt → (∀ q, y.watches q = false) →
      (∀ q, y.finishing q = true → x.finishing q = true) → Watched ((s.removeAttempt a).goto t x) := by
    intro t a r run y x ht hrun hmon ha hw hfin
    subst ha
    obtain ⟨i, g, h1, h2, h3⟩ := htd.reg.mon r run hrun hmon
    refine h.move ht (extra := []) (by simp [State.goto, threads_removeAttempt]) ?_
      (fun b j f h1 h2 => ⟨fun hc => (by rw [hw] at hc; cases hc), hfin _⟩)
    intro b j f hb hj
    simp only [State.removeAttempt, h1, h2, State.goto] at hb hj
    by_cases hba : b = run.attempt
    · subst hba; simp at hb
    · rw [Function.update_of_ne hba] at hb
      refine ⟨f, hb, ?_, rfl, rfl⟩
      rw [List.getElem?_set] at hj
      have hji : i ≠ j := by
        rintro rfl
        obtain ⟨k, k1, k2⟩ := hid.mapping _ _ h1
        obtain ⟨k', k3, k4⟩ := hid.mapping _ _ hb
        rw [k1] at k3; cases k3
        exact hba (k4.symm.trans k2)
      rw [if_neg hji] at hj
      exact hj
  cases hs with
  | submit => exact h.same rfl hsame
  | take k r hk => exact h.same rfl hsame
  | rejected a ha => exact h
  | resolved a i f ha hf =>
    refine h.same rfl ?_
    intro b j g h1 h2
    obtain ⟨k, h3, h4⟩ := token_back (g := { f with connected := true }) hf ⟨rfl, rfl⟩ h2
    exact ⟨k, h1, h3, h4⟩
  | quiet t y x e ht hq =>
    refine h.move (x := x) ht (extra := []) (by simp [State.goto]) hsame ?_
    cases hq with
    | watchDone i f hf hr =>
      intro a j g h1 h2
      refine ⟨fun hc => ?_, by simp [Thread.finishing]⟩
      obtain rfl : i = j := by simpa [Thread.watches] using hc
      have := h.unsignalled a i g h1 h2
      rw [hf] at h2; cases h2
      rw [hr] at this; cases this
    | fireConnect i f hf =>
      intro a j g h1 h2
      refine ⟨fun hc => .inr ?_, by simp [Thread.finishing]⟩
      obtain rfl : i = j := by simpa [Thread.watches] using hc
      rw [hf] at h2; cases h2
      simp [Thread.finishing]
    | fireReady i f hf =>
      intro a j g h1 h2
      refine ⟨fun hc => .inr ?_, by simp [Thread.finishing]⟩
      obtain rfl : i = j := by simpa [Thread.watches] using hc
      rw [hf] at h2; cases h2
      simp [Thread.finishing]
    | rqPanic r l run hrun hm =>
      refine leave ht (fun _ => rfl) ?_ (fun _ => id) _
      intro q run' hq hmon hf
      obtain rfl : r = q := by simpa [Thread.on] using hq
      obtain ⟨run2, hrun2, hf2⟩ := htd.run_of ht hq
      rw [hrun] at hrun2; cases hrun2
      have := hf2.2.2.1
      rw [hm] at this; cases this
    | clAgain w r run hrun hc =>
      obtain ⟨run', hrun', hf⟩ := htd.run_of ht (r := r) (by simp [Thread.on])
      rw [hrun] at hrun'; cases hrun'
      have := hf.2.2.1
      rw [hc] at this; cases this
    | clEvent w r =>
      refine leave ht (fun _ => rfl) ?_ (fun _ => id) _
      intro q run' hq hmon hf
      have := hf.2.2.2.1
      rw [hmon] at this; cases this
    | rqTest w r l run hrun =>
      intro a i f _ _
      split_ifs <;> simp [Thread.watches, Thread.finishing]
    | _ =>
      intro a i f _ _
      simp [Thread.watches, Thread.finishing]
  | write t y r f x e ht hw =>
    refine h.move (x := x) ht (extra := []) (by simp [State.goto, State.modRun]) hsame ?_
    intro a i f _ _
    cases hw <;> simp [Thread.watches, Thread.finishing]
  | crash t y r e run ht hrun hmon hc =>
    have hy : y.on r = true := by
      rcases hc with ⟨_, rfl, -⟩ | ⟨rfl | rfl, -⟩ <;> simp [Thread.on]
    obtain ⟨run', hrun', hf⟩ := htd.run_of ht hy
    rw [hrun] at hrun'; cases hrun'
    rcases hc with ⟨_, rfl, -⟩ | ⟨rfl | rfl, -⟩ <;> simp [Fine, Good, hmon] at hf
  | clPanic t y r run ht hrun hmon hc =>
    have hy : y.on r = true := by
      rcases hc with rfl | rfl <;> simp [Thread.on]
    obtain ⟨run', hrun', hf⟩ := htd.run_of ht hy
    rw [hrun] at hrun'; cases hrun'
    rcases hc with rfl | rfl <;> simp [Fine, Good, hmon] at hf
  | rqRemove t w r l a ht =>
    obtain ⟨run, hrun, hf⟩ := htd.run_of ht (r := r) (by simp [Thread.on])
    exact drop ht hrun hf.2.2.1 hf.2.2.2.2 (fun _ => rfl) (fun _ => id)
  | clRemove t w r a ht =>
    obtain ⟨run, hrun, hf⟩ := htd.run_of ht (r := r) (by simp [Thread.on])
    exact drop ht hrun hf.2.2.2.1 hf.2.2.2.2 (fun _ => rfl) (fun _ => id)
  | newId t w r l ht =>
    exact h.move (x := .requeue w r l (.setId (s.lastId + 1))) ht (extra := []) (by simp [State.goto]) hsame
      (fun a i f _ _ => by simp [Thread.watches, Thread.finishing])
  | add t r ht =>
    exact h.move (x := .done) ht (extra := []) (by simp [State.goto]) hsame
      (fun a i f _ _ => by simp [Thread.watches, Thread.finishing])
  | enqueue t w r l ht =>
    refine h.move (x := .done) ht (extra := []) (by simp [State.goto]) hsame
      (leave ht (fun _ => rfl) ?_ (fun _ => id) _)
    intro q run _ hmon hf
    have := hf.2.2.1
    rw [hmon] at this; cases this
  | register t r run ht hrun =>
    have old : ∀ a i f, a ≠ run.attempt →
        Function.update s.mapping run.attempt (some s.inflights.length) a = some i →
        (s.inflights ++ [{ run := r, attempt := run.attempt }])[i]? = some f →
        s.mapping a = some i ∧ s.inflights[i]? = some f := by
      intro a i f hne h1 h2
      rw [Function.update_of_ne hne] at h1
      refine ⟨h1, ?_⟩
      obtain ⟨g, hg, -⟩ := hid.mapping a i h1
      obtain ⟨hlt, -⟩ := List.getElem?_eq_some_iff.mp hg
      rwa [List.getElem?_append_left hlt] at h2
    have new : ∀ i f, Function.update s.mapping run.attempt (some s.inflights.length) run.attempt = some i →
        (s.inflights ++ [{ run := r, attempt := run.attempt }])[i]? = some f →
        i = s.inflights.length ∧ f = { run := r, attempt := run.attempt } := by
      intro i f h1 h2
      simp at h1
      subst h1
      simp at h2
      exact ⟨rfl, h2.symm⟩
    constructor
    · intro a i f h1 h2
      by_cases hc : a = run.attempt
      · subst hc
        rw [(new i f h1 h2).2]
      · obtain ⟨h3, h4⟩ := old a i f hc h1 h2
        exact h.unsignalled a i f h3 h4
    · intro a i f h1 h2
      by_cases hc : a = run.attempt
      · subst hc
        obtain ⟨rfl, rfl⟩ := new i f h1 h2
        exact .inl ⟨.watchConnect s.inflights.length, by simp, by simp [Thread.watches]⟩
      · obtain ⟨h3, h4⟩ := old a i f hc h1 h2
        have keep : ∀ z ∈ s.threads, z ≠ .registering r → z ∈ s.threads.set t .done ++
            [.watchConnect s.inflights.length] := by
          intro z hz hne
          obtain ⟨u, hu, rfl⟩ := List.getElem_of_mem hz
          refine List.mem_append_left _ (List.mem_iff_getElem.mpr ⟨u, by simpa using hu, ?_⟩)
          rw [List.getElem_set_ne]
          rintro rfl
          exact hne (List.getElem?_eq_some_iff.mp ht).2
        refine (h.watch a i f h3 h4).imp ?_ ?_ <;>
        · rintro ⟨z, hz, hzi⟩
          refine ⟨z, keep z hz ?_, hzi⟩
          rintro rfl
          simp [Thread.watches, Thread.finishing] at hzi
  | connect t i f ht hf =>
    refine h.move (x := .watchReady i) ht (extra := []) (by simp [State.goto]) ?_
      (fun a i f _ _ => by simp [Thread.watches, Thread.finishing])
    intro b j g h1 h2
    obtain ⟨k, h3, h4⟩ := token_back (g := { f with connected := false }) hf ⟨rfl, rfl⟩ h2
    exact ⟨k, h1, h3, h4⟩

theorem ReachOrderly.watched {m : Int} {evs : List Event} {s : State} (h : ReachOrderly m evs s) :
    Watched s := by
  induction h with
  | init => exact ⟨by simp, by simp⟩
  | step hr hs ho ih =>
    obtain ⟨own, hid⟩ := hr.reach.ids
    exact ih.step hid hr.tidy (step_inv hs).1

/-- C67, without races: no run is forgotten. A run that is not closed is in the queue, or a goroutine is
adding it, handing it out, requeuing it or closing it, or it is in flight and its watchdog is still waiting
(and will time out if nothing is heard of the runner). Missing: executions with races. -/
theorem C67_not_forgotten_partial {m : Int} {evs : List Event} {s : State} (h : ReachOrderly m evs s)
    {r : Nat} {run : Run} (hrun : s.runs[r]? = some run) (hopen : run.closed = false) :
    r ∈ s.queue ∨ (∃ x ∈ s.threads, x.on r = true) ∨
      ∃ a i f, s.mapping a = some i ∧ s.inflights[i]? = some f ∧ f.run = r ∧
        (.watchConnect i ∈ s.threads ∨ .watchReady i ∈ s.threads) := by
  by_cases h1 : ∃ x ∈ s.threads, x.on r = true
  · exact .inr (.inl h1)
  · have hno : ∀ x ∈ s.threads, x.on r = false := fun x hx => by
      by_contra hc
      exact h1 ⟨x, hx, by simpa using hc⟩
    rcases (C29_one_place_partial h hrun).2.2.2 hno with h2 | h2 | h2
    · exact .inl h2.1
    · obtain ⟨a, i, f, h3, h4, h5⟩ := h2.2.1
      refine .inr (.inr ⟨a, i, f, h3, h4, h5, ?_⟩)
      rcases h.watched.watch a i f h3 h4 with ⟨x, hx, hxi⟩ | ⟨x, hx, hxi⟩
      · cases x <;> simp [Thread.watches] at hxi <;> subst hxi
        · exact .inl hx
        · exact .inr hx
      · exfalso
        have := hno x hx
        rw [h5] at hxi
        cases x <;> simp [Thread.finishing, Thread.on] at hxi this
        · exact this hxi
        · exact this hxi
    · rw [hopen] at h2; cases h2.2.2

/-- A run in flight with its watchdog. -/
example : ∃ evs s, ReachOrderly 3 evs s ∧ (s.runs[0]?).map (·.closed) = some false ∧ 0 ∉ s.queue ∧
    (∀ x ∈ s.threads, x.on 0 = false) := by
  obtain ⟨p, hp⟩ : ∃ p, execOrderly 3 (handOut ++ [.upload 1, .step 2]) = some p := ⟨_, rfl⟩
  exact ⟨p.1, p.2, reachOrderly_of_exec hp, by cases hp; decide, by cases hp; decide, by cases hp; decide⟩

end Quark.Lifecycle
