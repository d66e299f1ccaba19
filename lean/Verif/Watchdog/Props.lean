import Verif.Watchdog.Model
import Mathlib.Data.List.Induction

/-!
# C30: the watchdog
-/

namespace Quark.Watchdog

/-- What the watchdog itself decides and announces. -/
def Event.own : Event → Bool
  | .sawConnected | .sawConnectTimer | .sawReady | .sawReadyTimer | .requeued | .notified | .closed => true
  | _ => false

/-- The three lives of a watchdog: the runner never connected, it never finished, or all went well. -/
def lives : List (List Event) :=
  [[.sawConnectTimer, .requeued, .notified],
   [.sawConnected, .sawReadyTimer, .requeued, .notified],
   [.sawConnected, .sawReady, .closed]]

/-- Where the goroutine is, given what it did. -/
def at_ (own : List Event) (s : State) : Prop :=
  match s.pc with
  | .startConnect => own = [] ∧ s.timeout = false ∧ s.connectTimer = {} ∧ s.readyTimer = {}
  | .waitConnect => own = [] ∧ s.timeout = false ∧ (s.connectTimer.running != s.connectTimer.value) = true ∧
      s.readyTimer = {}
  | .startReady => own = [.sawConnected] ∧ s.timeout = false ∧
      (s.connectTimer.running != s.connectTimer.value) = true ∧ s.readyTimer = {}
  | .waitReady => own = [.sawConnected] ∧ s.timeout = false ∧
      (s.connectTimer.running != s.connectTimer.value) = true ∧
      (s.readyTimer.running != s.readyTimer.value) = true
  | .requeue false => own = [.sawConnectTimer] ∧ s.timeout = false ∧ s.connectTimer = {}
  | .requeue true => own = [.sawConnected, .sawReadyTimer] ∧ s.timeout = false ∧ s.readyTimer = {}
  | .notify false => own = [.sawConnectTimer, .requeued] ∧ s.timeout = false ∧ s.connectTimer = {}
  | .notify true => own = [.sawConnected, .sawReadyTimer, .requeued] ∧ s.timeout = false ∧ s.readyTimer = {}
  | .stopReady =>
      (own = [.sawConnected, .sawReadyTimer, .requeued, .notified] ∧ s.readyTimer = {}) ∨
      (own = [.sawConnected, .sawReady] ∧ (s.connectTimer.running != s.connectTimer.value) = true ∧
        (s.readyTimer.running != s.readyTimer.value) = true)
  | .drainReady =>
      (own = [.sawConnected, .sawReadyTimer, .requeued, .notified] ∧ s.readyTimer = {}) ∨
      (own = [.sawConnected, .sawReady] ∧ (s.connectTimer.running != s.connectTimer.value) = true ∧
        s.readyTimer.value = true ∧ s.readyTimer.running = false)
  | .stopConnect =>
      (own = [.sawConnectTimer, .requeued, .notified] ∧ s.connectTimer = {}) ∨
      (own = [.sawConnected, .sawReady] ∧ (s.connectTimer.running != s.connectTimer.value) = true)
  | .drainConnect =>
      (own = [.sawConnectTimer, .requeued, .notified] ∧ s.connectTimer = {}) ∨
      (own = [.sawConnected, .sawReady] ∧ s.connectTimer.value = true ∧ s.connectTimer.running = false)
  | .close => own = [.sawConnected, .sawReady]
  | .done => own = [.sawConnected, .sawReady, .closed]

theorem step_at {s s' : State} {a : Act} {e : Event} {own : List Event} (h : at_ own s)
    (hs : step s a = some (s', e)) : at_ (own ++ if e.own then [e] else []) s' := by
  obtain ⟨pc, ⟨cr, cv⟩, ⟨rr, rv⟩, c, r, t⟩ := s
  cases a <;> cases pc <;> (try rename_i both; cases both) <;> simp only [step] at hs <;>
    (try split_ifs at hs) <;> (try cases hs) <;> simp_all [at_, Event.own] <;> tauto

theorem Reach.at_ {evs : List Event} {s : State} (h : Reach evs s) : at_ (evs.filter Event.own) s := by
  induction h with
  | init => simp [Watchdog.at_]
  | @step evs s a s' e _ hs ih =>
    have := step_at ih hs
    rw [List.filter_append]
    cases he : e.own <;> simpa [he] using this

/-- C30, what is announced. Whatever the timers and the runner do, what the watchdog does is the beginning of
one of its three lives: it requeues the run and announces a timeout, once, exactly after it took a
timer's value, and ends by closing the timeout channel only if it saw both signals. -/
theorem C30_lives {evs : List Event} {s : State} (h : Reach evs s) :
    ∃ l ∈ lives, evs.filter Event.own <+: l := by
  have := h.at_
  obtain ⟨pc, ct, rt, c, r, t⟩ := s
  cases pc <;> (try rename_i both; cases both) <;> simp only [at_] at this
  all_goals
    first
    | (rw [this.1]; exact ⟨_, .head _, by decide⟩)
    | (rw [this.1]; exact ⟨_, .tail _ (.head _), by decide⟩)
    | (rw [this.1]; exact ⟨_, .tail _ (.tail _ (.head _)), by decide⟩)
    | (rw [this]; exact ⟨_, .tail _ (.tail _ (.head _)), by decide⟩)
    | (rcases this with this | this <;> rw [this.1] <;>
        first
        | exact ⟨_, .head _, by decide⟩
        | exact ⟨_, .tail _ (.head _), by decide⟩
        | exact ⟨_, .tail _ (.tail _ (.head _)), by decide⟩)

/-- Values in the channels were put there and not taken. -/
structure Counts (evs : List Event) (s : State) : Prop where
  connect : evs.count .sawConnected + (if s.connected then 1 else 0) = evs.count .connectSignal
  ready : evs.count .sawReady + (if s.ready then 1 else 0) = evs.count .readySignal
  connectTimer : evs.count .sawConnectTimer + (if s.connectTimer.value then 1 else 0) ≤
    evs.count .connectExpired
  readyTimer : evs.count .sawReadyTimer + (if s.readyTimer.value then 1 else 0) ≤ evs.count .readyExpired

theorem Counts.step {evs : List Event} {s s' : State} {a : Act} {e : Event} (hat : at_ (evs.filter Event.own) s)
    (ih : Counts evs s) (hs : Watchdog.step s a = some (s', e)) : Counts (evs ++ [e]) s' := by
  obtain ⟨h1, h2, h3, h4⟩ := ih
  obtain ⟨pc, ⟨cr, cv⟩, ⟨rr, rv⟩, c, r, t⟩ := s
  cases a <;> cases pc <;> (try rename_i both; cases both) <;> simp only [Watchdog.step] at hs <;>
    (try split_ifs at hs) <;> (try cases hs) <;> constructor <;>
    simp_all [List.count_append, at_] <;> omega

theorem Reach.counts {evs : List Event} {s : State} (h : Reach evs s) : Counts evs s := by
  induction h with
  | init => exact ⟨rfl, rfl, by simp, by simp⟩
  | step hr hs ih => exact ih.step hr.at_ hs

/-- C30, causes. In every execution (and so in every prefix of one) the watchdog has not taken more values
than were put: it acts on a deadline only after that deadline expired, and on a signal only after the
signal was sent. -/
theorem C30_causes {evs : List Event} {s : State} (h : Reach evs s) :
    evs.count .sawConnectTimer ≤ evs.count .connectExpired ∧
    evs.count .sawReadyTimer ≤ evs.count .readyExpired ∧
    evs.count .sawConnected ≤ evs.count .connectSignal ∧
    evs.count .sawReady ≤ evs.count .readySignal := by
  obtain ⟨h1, h2, h3, h4⟩ := h.counts
  refine ⟨?_, ?_, ?_, ?_⟩ <;> omega

/-- C30, waiting. While it waits, the watchdog is always able to go on as soon as the signal was sent or the
deadline expired, and one of the two timers' expiry is always possible: it cannot wait forever. -/
theorem C30_wakes {evs : List Event} {s : State} (h : Reach evs s) :
    (s.pc = .waitConnect → (s.connected = true → (step s .takeSignal).isSome) ∧
      ((step s .takeTimer).isSome ∨ (step s .expireConnect).isSome)) ∧
    (s.pc = .waitReady → (s.ready = true → (step s .takeSignal).isSome) ∧
      ((step s .takeTimer).isSome ∨ (step s .expireReady).isSome)) ∧
    ((∃ b, s.pc = .requeue b ∨ s.pc = .notify b) → (step s .go).isSome) := by
  have hat := h.at_
  obtain ⟨pc, ⟨cr, cv⟩, ⟨rr, rv⟩, c, r, t⟩ := s
  refine ⟨?_, ?_, ?_⟩
  · rintro rfl
    cases cr <;> cases cv <;> simp_all [at_, step]
  · rintro rfl
    cases rr <;> cases rv <;> simp_all [at_, step]
  · rintro ⟨b, h | h⟩ <;> cases h <;> cases b <;> simp_all [at_, step]

/-- How many operations are left. -/
def left : Pc → Nat
  | .stopReady => 5
  | .drainReady => 4
  | .stopConnect => 3
  | .drainConnect => 2
  | .close => 1
  | _ => 0

/-- C30, termination when both signals were seen: until the timeout channel is closed the goroutine always has
a next operation, whatever the timers do meanwhile, and there are at most five of them, the
close included. Missing: it does not terminate after a timeout, see `C30_stuck_after_timeout`. -/
theorem C30_terminates_partial {evs : List Event} {s : State} (h : Reach evs s) {pre post : List Event}
    (hl : evs = pre ++ .sawReady :: post) :
    (.closed ∉ evs → (step s .go).isSome) ∧
    post.count .tau + post.count .closed ≤ 5 := by
  have hat := h.at_
  constructor
  · intro hc
    have hmem : Event.sawReady ∈ evs.filter Event.own := by
      rw [hl]; simp [Event.own]
    have hcl : Event.closed ∉ evs.filter Event.own := fun h => hc (List.mem_filter.mp h).1
    obtain ⟨pc, ⟨cr, cv⟩, ⟨rr, rv⟩, c, r, t⟩ := s
    cases pc <;> (try rename_i both; cases both) <;> simp only [at_] at hat <;>
      (try (rcases hat with hat | hat)) <;>
      first
      | (rw [hat.1] at hmem; simp at hmem; done)
      | (rw [hat] at hcl; simp at hcl; done)
      | simp_all [step]
  · have key : ∀ {evs : List Event} {s : State}, Reach evs s → ∀ {pre post : List Event},
        evs = pre ++ .sawReady :: post → post.count .tau + post.count .closed + left s.pc ≤ 5 := by
      intro evs s h
      induction h with
      | init => intro pre post hl; simp at hl
      | @step evs s a s' e hr hs ih =>
        intro pre post hl
        rcases List.eq_nil_or_concat post with rfl | ⟨post', x, rfl⟩
        · simp only [List.count_nil]
          cases s'.pc <;> simp [left]
        · rw [List.concat_eq_append, ← List.cons_append, ← List.append_assoc] at hl
          obtain ⟨hl', hx⟩ := List.append_inj' hl rfl
          have h1 := ih hl'
          cases hx
          have hmem : Event.sawReady ∈ evs.filter Event.own := by
            rw [hl']; simp [Event.own]
          have hat := hr.at_
          rw [List.concat_eq_append, List.count_append, List.count_append]
          obtain ⟨pc, ⟨cr, cv⟩, ⟨rr, rv⟩, c, r, t⟩ := s
          cases a <;> cases pc <;> (try rename_i both; cases both) <;>
            simp only [Watchdog.step] at hs <;> (try split_ifs at hs) <;> (try cases hs) <;>
            simp only [left, at_] at h1 hat ⊢ <;>
            first
            | (rw [hat.1] at hmem; simp at hmem; done)
            | (simp at h1 ⊢; omega)
            | (split_ifs <;> simp [left] at h1 ⊢ <;> omega)
    have := key h hl
    omega

/-- C30 fails after a timeout: the goroutine performs at most one more operation, which leaves it waiting for
a second value from a timer that expired once, where none of its operations is possible; the
timeout channel is never closed. -/
theorem C30_stuck_after_timeout {evs : List Event} {s : State} (h : Reach evs s)
    (hn : .notified ∈ evs) :
    .closed ∉ evs ∧
    (s.pc = .stopConnect ∨ s.pc = .stopReady ∨
      step s .takeSignal = none ∧ step s .takeTimer = none ∧ step s .go = none) ∧
    ∀ s' e, step s .go = some (s', e) →
      step s' .takeSignal = none ∧ step s' .takeTimer = none ∧ step s' .go = none := by
  have hat := h.at_
  have hmem : Event.notified ∈ evs.filter Event.own := List.mem_filter.mpr ⟨hn, rfl⟩
  have hcl : Event.closed ∈ evs → Event.closed ∈ evs.filter Event.own :=
    fun h => List.mem_filter.mpr ⟨h, rfl⟩
  refine ⟨fun hc => ?_, ?_⟩
  · obtain ⟨l, hl, hp⟩ := C30_lives h
    have h1 := hp.subset hmem
    have h2 := hp.subset (hcl hc)
    simp [lives] at hl
    rcases hl with rfl | rfl | rfl <;> simp at h1 h2
  · obtain ⟨pc, ⟨cr, cv⟩, ⟨rr, rv⟩, c, r, t⟩ := s
    cases pc <;> (try rename_i both; cases both) <;> simp only [at_] at hat <;>
      (try (rcases hat with hat | hat)) <;>
      first
      | (rw [hat.1] at hmem; simp at hmem; done)
      | (rw [hat] at hmem; simp at hmem; done)
      | simp_all [step]

/-- A schedule, as an execution. -/
def exec (acts : List Act) : Option (List Event × State) :=
  acts.foldl (fun acc a => acc.bind fun p => (step p.2 a).map fun q => (p.1 ++ [q.2], q.1)) (some ([], {}))

theorem reach_of_exec {acts : List Act} {evs : List Event} {s : State}
    (h : exec acts = some (evs, s)) : Reach evs s := by
  induction acts using List.reverseRecOn generalizing evs s with
  | nil => cases h; exact .init
  | append_singleton acts a ih =>
    rw [show exec (acts ++ [a]) = (exec acts).bind fun p => (step p.2 a).map fun q => (p.1 ++ [q.2], q.1) by
      simp [exec, List.foldl_append]] at h
    obtain ⟨p, hp, h⟩ := Option.bind_eq_some_iff.mp h
    obtain ⟨q, hq, h⟩ := Option.map_eq_some_iff.mp h
    cases h
    exact .step (ih (evs := p.1) (s := p.2) hp) hq

/-- All goes well although the connect deadline expires while the runner works: the drain is needed. -/
example : ∃ evs s, Reach evs s ∧ evs.filter Event.own = [.sawConnected, .sawReady, .closed] ∧
    .connectExpired ∈ evs ∧ s.pc = .done := by
  obtain ⟨p, hp⟩ : ∃ p, exec [.go, .signalConnect, .takeSignal, .go, .expireConnect, .signalReady, .takeSignal,
    .go, .go, .go, .go] = some p := ⟨_, rfl⟩
  exact ⟨p.1, p.2, reach_of_exec hp, by cases hp; decide, by cases hp; decide, by cases hp; rfl⟩

/-- A timeout: the goroutine waits forever. -/
example : ∃ evs s, Reach evs s ∧ evs.filter Event.own = [.sawConnected, .sawReadyTimer, .requeued, .notified] ∧
    s.pc = .drainReady := by
  obtain ⟨p, hp⟩ : ∃ p, exec [.go, .signalConnect, .takeSignal, .go, .expireReady, .takeTimer, .go, .go, .go]
    = some p := ⟨_, rfl⟩
  exact ⟨p.1, p.2, reach_of_exec hp, by cases hp; decide, by cases hp; rfl⟩

end Quark.Watchdog
